{"id": "C01", "title": "Angle wrap lands in the canonical interval", "statement": "Wrapping an angle with limits [min,max) (min<=0<max) returns a value in [min,max) that differs from the input by an integer number of periods; wrapping is idempotent, invariant under adding any whole number of periods, and is the identity on values already in range.", "quantifier": "for every pair of limits min<=0<max and every real angle", "why_tests_cant": "The input is a real line crossed with a continuum of limits; a test only samples finitely many wrap multiples and limits.", "anchors": ["OpenKalman/patterns/descriptors/Angle.hpp: wrap, wrap_phi_mod"]}
{"id": "C02", "title": "Angle round trip through statistical space equals wrap", "statement": "Converting an angle to its (cos,sin) statistical coordinates and back yields exactly the wrapped angle.", "quantifier": "for every pair of limits and every real angle (the special-cased limits [-pi,pi) included)", "why_tests_cant": "The claim relates two independently coded branches on all reals, including the boundary points where a test with a tolerance cannot tell -pi from pi.", "anchors": ["OpenKalman/patterns/descriptors/Angle.hpp: to_stat_space, from_stat_space, wrap", "OpenKalman/patterns/interfaces/pattern_descriptor_traits.hpp"]}
{"id": "C03", "title": "Angle statistical coordinates identify angles exactly modulo the period", "statement": "Two angles have the same statistical coordinates iff they differ by a whole number of periods; coordinates lie on the unit circle; decoding is unaffected by scaling the coordinates by a positive factor, always lands in range for scaled limits, and re-encoding a decoded nonzero vector gives the normalised vector.", "quantifier": "for every pair of limits, all pairs of angles, all nonzero planar vectors", "why_tests_cant": "Injectivity and surjectivity are statements over all pairs of reals.", "anchors": ["OpenKalman/patterns/descriptors/Angle.hpp"]}
{"id": "C04", "title": "Inclination wrap and round trip", "statement": "Wrapping an inclination with limit down>0 lands in [0,down]; it is idempotent, is the identity in range, is even, is periodic with period 2*down, and equals decoding the encoded value. The encoding lies on the upper unit half circle and is injective on [0,down].", "quantifier": "for every down>0 and every real inclination", "why_tests_cant": "Reflection and periodicity laws over all reals cannot be enumerated.", "anchors": ["OpenKalman/patterns/descriptors/Inclination.hpp"]}
{"id": "C05", "title": "Distance is non-negative after wrapping, and decoding does not enforce it", "statement": "Wrapping a distance yields a non-negative value, is idempotent and equals decoding the encoded value; decoding an arbitrary statistical value (for example a weighted mean with negative weights) returns a non-negative distance.", "quantifier": "for every real distance / every real statistical coordinate", "why_tests_cant": "The second half depends on which values can reach decoding (negative weights), which sample tests of the descriptor never produce.", "anchors": ["OpenKalman/patterns/descriptors/Distance.hpp"]}
{"id": "C06", "title": "Polar wrap preserves the point and canonicalises it", "statement": "Wrapping polar coordinates gives non-negative radius and in-range angle, represents the same plane point (radius*cos, radius*sin at the scaled angle), is idempotent, and equals decoding the encoding whenever the limits are not exactly [-pi,pi).", "quantifier": "for every pair of limits, both coordinate orders, every radius and angle", "why_tests_cant": "Sign flips, wraps and orders interact over a two-dimensional continuum.", "anchors": ["OpenKalman/patterns/descriptors/Polar.hpp"]}
{"id": "C07", "title": "Spherical wrap preserves the point and canonicalises it", "statement": "Wrapping spherical coordinates gives non-negative radius, inclination in [0,down] and azimuth in [min,max), and represents the same point of three-space; in-range coordinates are fixed points; wrapping is idempotent.", "quantifier": "for all limits, all six coordinate orders, every radius, inclination and azimuth", "why_tests_cant": "Eight sign/overflow combinations interact over three real variables.", "anchors": ["OpenKalman/patterns/descriptors/Spherical.hpp"]}
{"id": "C08", "title": "Spherical round trip through statistical space", "statement": "Decoding the encoding of spherical coordinates represents the same radius and direction as the input, and equals the wrapped input away from the poles and zero radius direction degeneracies.", "quantifier": "for all limits, all six orders, all coordinates", "why_tests_cant": "acos/copysign branch structure over three real variables; degenerate poles are measure-zero and missed by sampling.", "anchors": ["OpenKalman/patterns/descriptors/Spherical.hpp: to_stat_space, from_stat_space, wrap"]}
{"id": "C09", "title": "Pattern-level conversions act block by block", "statement": "For any list of descriptors, to_stat_space, from_stat_space and wrap consume exactly dimension (resp. stat dimension) many components, produce exactly stat dimension (resp. dimension) many, leave no component read twice or skipped, and distribute over concatenation of patterns and data.", "quantifier": "for every finite list of descriptors and every data vector of matching length, both library configurations", "why_tests_cant": "Pattern lists are unbounded; tests use a handful of fixed tuples.", "anchors": ["OpenKalman/patterns/functions/to_stat_space.hpp", "OpenKalman/patterns/functions/from_stat_space.hpp", "OpenKalman/patterns/functions/wrap.hpp"]}
{"id": "C10", "title": "Dimension, stat dimension and Euclidean-ness are additive", "statement": "Dimension and stat dimension of a concatenation are the sums; a pattern is Euclidean iff every component is; for Euclidean patterns stat dimension equals dimension and the conversions and wrap are the identity.", "quantifier": "for every list of descriptors", "why_tests_cant": "Unbounded lists.", "anchors": ["OpenKalman/patterns/functions/get_dimension.hpp", "OpenKalman/patterns/functions/get_stat_dimension.hpp", "OpenKalman/patterns/functions/get_is_euclidean.hpp"]}
{"id": "C11", "title": "Pattern comparison is prefix order up to merging Euclidean dimensions", "statement": "Comparing two patterns yields equivalent iff they are the same sequence once adjacent Euclidean dimensions are merged, less iff the first is a proper prefix of the second in that sense, greater symmetrically, and unordered otherwise. Hence equivalence is an equivalence relation and <= is a partial order.", "quantifier": "for every pair (triple) of descriptor lists", "why_tests_cant": "The comparison is a two-cursor merge with carry counters over unbounded lists.", "anchors": ["OpenKalman/patterns/functions/compare_three_way.hpp"]}
{"id": "C12", "title": "Pattern comparison agrees with itself for all ways of presenting a pattern", "statement": "The comparison dispatcher (Euclidean shortcut, single descriptor, sized and unsized collections, empty collections) gives the same verdict however the same pattern is presented.", "quantifier": "for every pair of patterns and every presentation", "why_tests_cant": "Presentation is a type-level case split crossed with unbounded lists.", "anchors": ["OpenKalman/patterns/functions/compare_three_way.hpp: compare_three_way"]}
{"id": "C13", "title": "Equal descriptor hash implies equivalent descriptor", "statement": "Two descriptors with equal hash codes are equivalent (the comparison of non-Euclidean descriptors is by hash code alone).", "quantifier": "for every pair of descriptors", "why_tests_cant": "A collision is a single needle in a continuum of limits.", "anchors": ["OpenKalman/patterns/descriptors/Angle.hpp: hash_code", "OpenKalman/patterns/descriptors/Inclination.hpp: hash_code", "OpenKalman/patterns/descriptors/Polar.hpp", "OpenKalman/patterns/interfaces/pattern_descriptor_traits.hpp"]}
{"id": "C14", "title": "Pattern-collection comparison ignores exactly the trailing one-dimensional patterns", "statement": "Comparing two pattern collections is elementwise comparison with the shorter padded by one-dimensional patterns; two collections compare equal iff they agree after removing trailing one-dimensional patterns; it is an equivalence relation. Removing trailing one-dimensional patterns is idempotent and the recursive and loop versions agree.", "quantifier": "for every pair of pattern collections, fixed-size or dynamic", "why_tests_cant": "Unbounded collections and two implementations (compile-time recursion and loop).", "anchors": ["OpenKalman/patterns/functions/compare_pattern_collections.hpp", "OpenKalman/patterns/functions/internal/strip_1D_tail.hpp"]}
{"id": "C15", "title": "Transposed pattern view swaps two entries and nothing else", "statement": "A transposed pattern collection with a<b has size max(size,b+1), has entries a and b swapped (missing entries read as one-dimensional) and all others unchanged, by compile-time access, by iteration and by run-time indexing alike; transposing twice restores the collection up to trailing one-dimensional patterns.", "quantifier": "for every collection, every a<b, every position and access path", "why_tests_cant": "Unbounded sizes and positions; the access paths are separate code.", "anchors": ["OpenKalman/patterns/views/transpose.hpp"]}
{"id": "C16", "title": "Diagonal patterns", "statement": "Taking the pattern of a diagonal and making a diagonal pattern are inverse: diagonal_of(to_diagonal(p)) equals p for non-empty p; diagonal_of picks the shorter of the first two patterns and drops one rank; it rejects collections whose first two patterns are not comparable; the vector dimension is the minimum.", "quantifier": "for every pattern collection", "why_tests_cant": "Unbounded collections.", "anchors": ["OpenKalman/patterns/views/diagonal_of.hpp", "OpenKalman/patterns/views/to_diagonal.hpp"]}
{"id": "C17", "title": "Largest, smallest and uniform pattern selection", "statement": "largest_pattern / smallest_pattern return the first argument whose dimension is the maximum / minimum (recursive and loop versions agree). A uniform component reported for a pattern is one-dimensional and is the component of which the pattern is a repetition.", "quantifier": "for every non-empty list of patterns", "why_tests_cant": "Unbounded lists, ties and zero dimensions.", "anchors": ["OpenKalman/patterns/functions/internal/largest_pattern.hpp", "OpenKalman/patterns/functions/internal/smallest_pattern.hpp", "OpenKalman/patterns/functions/get_uniform_pattern_component.hpp"]}
{"id": "C18", "title": "Collection views refine list operations", "statement": "concat, replicate, slice and reverse views: size and i-th element (compile-time access, run-time access, iteration) are those of list append, n-fold repetition, sub-list and reversal; nested views compose accordingly.", "quantifier": "for all collections, all in-range indices, all offsets/extents/factors in the documented domain", "why_tests_cant": "Unbounded sizes and nesting.", "anchors": ["OpenKalman/collections/views/concat.hpp", "OpenKalman/collections/views/replicate.hpp", "OpenKalman/collections/views/slice.hpp", "OpenKalman/collections/functions/internal/tuple_reverse.hpp"]}
{"id": "C19", "title": "Lexicographic comparison is the lexicographic order", "statement": "The recursive and the loop implementation agree and return the standard lexicographic three-way result; for a strict-weak element order the result is antisymmetric and transitive, and is equal iff the sequences are elementwise equal.", "quantifier": "for every pair (triple) of finite sequences and every element comparison", "why_tests_cant": "Unbounded sequences.", "anchors": ["OpenKalman/collections/functions/lexicographical_compare_three_way.hpp"]}
{"id": "C20", "title": "Index comparison checks the common prefix only", "statement": "compare_indices holds iff the relation holds at every position present in both collections; for equal lengths it is the pointwise relation, hence reflexive/symmetric/transitive when the relation is.", "quantifier": "for every pair of index collections and relation", "why_tests_cant": "Unbounded collections.", "anchors": ["OpenKalman/collections/functions/compare_indices.hpp"]}
{"id": "C21", "title": "Packed triangular storage is a bijection", "statement": "For square extents the packed triangular mapping is symmetric in the two indices (or injective on the stored triangle), maps the triangle one-to-one onto 0..n(n+1)/2-1 and never leaves the allocated span, for both row/column orders and both triangles.", "quantifier": "for every n and every index pair", "why_tests_cant": "Quadratic index arithmetic over unbounded n.", "anchors": ["OpenKalman/linear-algebra/interfaces/stl/packed_triangle_mdspan_policies.hpp: layout_packed_triangle"]}
{"id": "C22", "title": "Triangle-partition layout separates diagonal, stored triangle and mirrored triangle", "statement": "For a square matrix, over any in-range nested mapping of span S: diagonal entries map to [0,S), stored-triangle entries to [S,2S), the other triangle to [2S,3S), subtracting the partition offset gives the nested location of the entry (or of its mirror image), and the mapping is injective if the nested one is.", "quantifier": "for every square extents, every nested mapping, lower/upper/diagonal", "why_tests_cant": "Nested mapping is an arbitrary function; extents unbounded.", "anchors": ["OpenKalman/linear-algebra/interfaces/stl/layout_triangle_partition.hpp"]}
{"id": "C23", "title": "Triangular and Hermitian adapters read the right element", "statement": "Reading element (i,j) of a triangular adapter gives the nested element inside the triangle and zero outside; reading a Hermitian adapter gives the nested element in the stored triangle, the conjugate of the mirrored element in the other, and the real part on the diagonal; the Hermitian result is self-adjoint for every nested content.", "quantifier": "for every nested matrix, extents, triangle and in-range index pair", "why_tests_cant": "All contents and sizes.", "anchors": ["OpenKalman/linear-algebra/interfaces/stl/triangular_accessor.hpp", "OpenKalman/linear-algebra/interfaces/stl/hermitian_accessor.hpp", "OpenKalman/linear-algebra/adapters/triangular_adapter.hpp", "OpenKalman/linear-algebra/adapters/hermitian_adapter.hpp"]}
{"id": "C24", "title": "Accessor offset law", "statement": "Offsetting a data handle and then accessing is accessing at the sum: access(offset(p,i),j) = access(p,i+j) (the accessor-policy law every mdspan algorithm relies on).", "quantifier": "for every handle, i and j", "why_tests_cant": "Law over all pairs of offsets.", "anchors": ["OpenKalman/linear-algebra/interfaces/stl/triangular_accessor.hpp: offset", "OpenKalman/linear-algebra/interfaces/stl/hermitian_accessor.hpp: offset", "OpenKalman/linear-algebra/interfaces/stl/to_diagonal_accessor.hpp: offset"]}
{"id": "C25", "title": "Diagonal layouts", "statement": "The diagonal_of layout reads nested (i,i,...), stays in span and is injective if the nested mapping is; the to_diagonal layout maps diagonal entries to the nested location and off-diagonal entries to a location outside the nested span but inside the declared span; diagonal_of(to_diagonal(v)) reads v; reported strides agree with index increments.", "quantifier": "for every rank, extents, nested mapping and index tuple", "why_tests_cant": "Unbounded rank/extents, arbitrary nested mapping.", "anchors": ["OpenKalman/linear-algebra/interfaces/stl/layout_diagonal_of.hpp", "OpenKalman/linear-algebra/interfaces/stl/layout_to_diagonal.hpp"]}
{"id": "C26", "title": "Transposed layout swaps two indices", "statement": "The transposed layout reads the nested element with indices a and b exchanged, is an involution, preserves injectivity and span, and its strides are the nested strides exchanged.", "quantifier": "for every rank, index pair a<b, nested mapping and index tuple", "why_tests_cant": "Unbounded ranks and arbitrary nested mapping.", "anchors": ["OpenKalman/linear-algebra/interfaces/stl/transpose_mdspan_policies.hpp", "OpenKalman/linear-algebra/adapters/transpose_adapter.hpp"]}
{"id": "C27", "title": "Integer power", "statement": "pow with integral exponent equals repeated multiplication (inverse for negative exponents); zero base with negative exponent is the documented infinity case, and recursion terminates for every exponent.", "quantifier": "for every base in any field and every integer exponent", "why_tests_cant": "Unbounded exponent; recursion by squaring with truncating remainders.", "anchors": ["OpenKalman/values/math/pow.hpp: pow_integral", "OpenKalman/values/math/internal/exp_utils.hpp: integral_exp"]}
{"id": "C28", "title": "Scaling identities of log and exp", "statement": "The argument-reduction steps of log (scaling by powers of two with multiples of ln 2) terminate, end in the core interval and preserve log x exactly; the integer/fraction split of exp and expm1 reconstructs exp x and exp x - 1 exactly.", "quantifier": "for every positive real (log) and every real (exp)", "why_tests_cant": "Loop over unbounded magnitude.", "anchors": ["OpenKalman/values/math/internal/log_utils.hpp", "OpenKalman/values/math/exp.hpp", "OpenKalman/values/math/expm1.hpp"]}
{"id": "C29", "title": "hypot is the Euclidean norm", "statement": "The scaled evaluation of hypot returns the square root of the sum of squares (zero and all-zero inputs included); it is non-negative, and independent of argument order.", "quantifier": "for every list of reals", "why_tests_cant": "Variadic and real-valued.", "anchors": ["OpenKalman/values/math/hypot.hpp"]}
{"id": "C30", "title": "Complex square root is the principal root", "statement": "The complex square root squares to the input and has non-negative real part, with the sign of the imaginary part following the input.", "quantifier": "for every complex number", "why_tests_cant": "Continuum with branch cut.", "anchors": ["OpenKalman/values/math/sqrt.hpp"]}
{"id": "C31", "title": "fmod contract", "statement": "The fallback fmod returns x minus an integer multiple of y, with magnitude less than |y| and the sign of x, is NaN for y=0, and throws only when the quotient leaves the integer range.", "quantifier": "for all reals x, y", "why_tests_cant": "Continuum.", "anchors": ["OpenKalman/values/math/fmod.hpp"]}
{"id": "C32", "title": "Two-argument arctangent quadrants", "statement": "atan2 on reals returns the principal argument of x+iy in (-pi,pi]; the overload for complex arguments agrees with it on real inputs.", "quantifier": "for all (x,y)", "why_tests_cant": "Quadrant logic over a continuum; complex path never tested against the real path in the left half plane.", "anchors": ["OpenKalman/values/math/atan2.hpp", "OpenKalman/values/math/internal/math_utils.hpp: atan2_impl"]}
{"id": "C33", "title": "Complex arcsine and arccosine are right inverses", "statement": "sin(asin z)=z and cos(acos z)=z for the logarithmic formulas used.", "quantifier": "for every complex z", "why_tests_cant": "Continuum with branch cuts.", "anchors": ["OpenKalman/values/math/asin.hpp", "OpenKalman/values/math/acos.hpp"]}
{"id": "C34", "title": "Trace special cases agree with the definition", "statement": "Every shortcut taken by trace (zero, identity, constant, constant-diagonal, general) returns the sum of the diagonal elements, also for rectangular arguments.", "quantifier": "for every size, every content and every structural tag that truthfully describes it", "why_tests_cant": "All sizes/contents; each shortcut is a separate type-level branch.", "anchors": ["OpenKalman/linear-algebra/functions/trace.hpp"]}
{"id": "C35", "title": "Determinant special cases agree with the definition", "statement": "Every shortcut taken by determinant (identity, empty, one-dimensional, constant, constant-diagonal, triangular) equals the determinant.", "quantifier": "for every square size and content truthfully tagged", "why_tests_cant": "All sizes/contents.", "anchors": ["OpenKalman/linear-algebra/functions/determinant.hpp"]}
{"id": "C36", "title": "Contraction shortcuts agree with matrix multiplication", "statement": "Every shortcut of contract (identity, zero, constant-constant, diagonal-constant, constant-diagonal, diagonal-diagonal) returns the matrix product, with the product's shape, for square and rectangular operands.", "quantifier": "for all conforming sizes and truthfully tagged contents", "why_tests_cant": "All sizes/contents/tags.", "anchors": ["OpenKalman/linear-algebra/functions/contract.hpp"]}
{"id": "C37", "title": "Sum is order-independent across its shortcuts", "statement": "sum of any list of same-shaped arguments tagged zero, constant, constant-diagonal, diagonal, general equals the elementwise sum, whatever the interleaving of tags.", "quantifier": "for every list of arguments and tags", "why_tests_cant": "Unbounded argument lists with a rewriting strategy.", "anchors": ["OpenKalman/linear-algebra/functions/sum.hpp"]}
{"id": "C38", "title": "Transpose and conjugate shortcuts agree with the definition", "statement": "transpose, conjugate and conjugate_transpose shortcuts (constant, diagonal, Hermitian, ...) return the index-swapped (conjugated) tensor for every pair of indices and rank; transposing twice is the identity.", "quantifier": "for every rank, index pair a<b, contents truthfully tagged", "why_tests_cant": "Rank and content unbounded.", "anchors": ["OpenKalman/linear-algebra/functions/transpose.hpp", "OpenKalman/linear-algebra/functions/conjugate_transpose.hpp", "OpenKalman/linear-algebra/functions/conjugate.hpp"]}
{"id": "C39", "title": "Reduction shortcuts agree with folding", "statement": "reduce and average_reduce shortcuts on constant and diagonal arguments equal folding the operation (averaging) over the reduced indices.", "quantifier": "for every size and content truthfully tagged, for plus, multiplies and arbitrary associative operations on constants", "why_tests_cant": "All sizes.", "anchors": ["OpenKalman/linear-algebra/functions/reduce.hpp", "OpenKalman/linear-algebra/functions/average_reduce.hpp"]}
{"id": "C40", "title": "Split inverts concatenate", "statement": "Splitting a vertical, horizontal or diagonal concatenation by the operands' dimensions returns the operands; tiling writes every element exactly once and rejects misfitting blocks.", "quantifier": "for every list of blocks", "why_tests_cant": "Unbounded block lists.", "anchors": ["OpenKalman/linear-algebra/functions/split.hpp", "OpenKalman/linear-algebra/functions/concatenate.hpp", "OpenKalman/linear-algebra/functions/tile.hpp"]}
{"id": "C41", "title": "Slices and chips: set then get", "statement": "get_slice after set_slice returns the block written, elements outside the block are untouched, out-of-range requests are rejected; chips are unit-width slices.", "quantifier": "for every tensor, block, offset", "why_tests_cant": "All sizes/contents.", "anchors": ["OpenKalman/linear-algebra/functions/set_slice.hpp", "OpenKalman/linear-algebra/functions/get_slice.hpp", "OpenKalman/linear-algebra/functions/set_chip.hpp"]}
{"id": "C42", "title": "Solve shortcuts solve the equation", "statement": "solve returns X of the right shape with A X = B for constant/constant-diagonal/diagonal/one-dimensional shortcuts with nonzero divisors (least squares for the documented inexact constant case).", "quantifier": "for all conforming sizes and truthfully tagged contents", "why_tests_cant": "All sizes/contents.", "anchors": ["OpenKalman/linear-algebra/functions/solve.hpp"]}
{"id": "C43", "title": "Cholesky factor and square are inverse; LQ and rank update preserve the Gram matrix", "statement": "cholesky_square(cholesky_factor(A)) = A for constant, diagonal and constant-diagonal non-negative shortcuts in lower and upper form; the LQ shortcut preserves A A*; rank-update shortcuts realise A A* + alpha U U* (upper: A* A + alpha U U*).", "quantifier": "for all sizes and contents in the documented domain", "why_tests_cant": "All sizes/contents.", "anchors": ["OpenKalman/linear-algebra/functions/cholesky_factor.hpp", "OpenKalman/linear-algebra/functions/cholesky_square.hpp", "OpenKalman/linear-algebra/functions/LQ_decomposition.hpp", "OpenKalman/linear-algebra/functions/rank_update_triangular.hpp", "OpenKalman/linear-algebra/functions/rank_update_hermitian.hpp"]}
{"id": "C44", "title": "Lazily synchronised covariance always reads as its last written value", "statement": "A covariance that stores both a matrix and its Cholesky counterpart with a synchronisation flag behaves as a single value: after any sequence of element writes, assignments, reads and view requests, a read returns the value most recently written, in whichever form it is requested.", "quantifier": "for every finite history of operations", "why_tests_cant": "History-dependent state with three flag values; tests exercise a few short histories.", "anchors": ["OpenKalman/linear-algebra/adapters/details/CovarianceBase3Impl.hpp", "OpenKalman/linear-algebra/adapters/details/CovarianceBase3-1.hpp", "OpenKalman/linear-algebra/adapters/details/CovarianceImpl.hpp"]}
{"id": "C45", "title": "Covariance copy assignment copies the value", "statement": "After a = b for two covariances of the same type, reading a gives the value of b, and b is unchanged.", "quantifier": "for every pair of reachable states of a and b", "why_tests_cant": "Depends on the joint hidden synchronisation state of both operands.", "anchors": ["OpenKalman/linear-algebra/adapters/details/CovarianceBase3Impl.hpp: operator=(const CovarianceBase3Impl&)"]}
{"id": "C46", "title": "Reference covariances do not lose updates", "statement": "A square-root (or square) view on a covariance and the covariance itself stay coherent: an update through either is seen through the other and no earlier update is lost.", "quantifier": "for every interleaving of reads and writes through the two handles", "why_tests_cant": "Interleavings are unbounded.", "anchors": ["OpenKalman/linear-algebra/adapters/details/CovarianceBase2.hpp"]}
{"id": "C47", "title": "Covariance arithmetic acts on the represented matrix", "statement": "+, -, scalar *, scalar /, scale and inverse_scale on covariances, in Cholesky or self-adjoint form, square root or not, give the object representing the corresponding matrix operation.", "quantifier": "for every size, form and content", "why_tests_cant": "Form cross-product with all contents.", "anchors": ["OpenKalman/linear-algebra/adapters/details/covariance-arithmetic.hpp"]}
{"id": "C48", "title": "Kalman update computes the optimal gain", "statement": "The update step's gain K satisfies K Pyy = Pxy, minimises the posterior covariance among all gains (in the positive-semidefinite order), and the posterior mean and covariance are x + K(z-y) and P - K Pyy K*.", "quantifier": "for all dimensions, all covariances with invertible Pyy, all gains", "why_tests_cant": "Optimality quantifies over all gains and all matrices.", "anchors": ["OpenKalman/filters/KalmanFilter.hpp: update_step"]}
{"id": "C49", "title": "Covariance stays symmetric positive semidefinite through any history", "statement": "Starting from a valid covariance, after any interleaving of linear predicts and updates with valid noise the covariance is Hermitian positive semidefinite; an update never increases and a noise-free identity predict never changes it.", "quantifier": "for every finite history of predict/update calls with arbitrary matrices", "why_tests_cant": "Unbounded histories.", "anchors": ["OpenKalman/filters/KalmanFilter.hpp", "OpenKalman/transforms/LinearTransform.hpp", "OpenKalman/transforms/details/LinearTransformBase.hpp"]}
{"id": "C50", "title": "Square-root filter equals covariance filter", "statement": "Running any history in Cholesky form and in covariance form gives the same means and covariances.", "quantifier": "for every history, dimension and content", "why_tests_cant": "Two code paths over unbounded histories.", "anchors": ["OpenKalman/filters/KalmanFilter.hpp", "OpenKalman/transforms/details/LinearTransformBase.hpp"]}
{"id": "C51", "title": "Batch and sequential measurement updates agree", "statement": "Updating with two conditionally independent linear measurements stacked equals updating with one and then the other, in either order.", "quantifier": "for all dimensions and contents", "why_tests_cant": "All matrices.", "anchors": ["OpenKalman/filters/KalmanFilter.hpp: update"]}
{"id": "C52", "title": "Update equals Bayes' rule", "statement": "The linear update's covariance and mean equal the information-form posterior (inverse covariance adds H* R^-1 H).", "quantifier": "for all positive definite prior/noise", "why_tests_cant": "All matrices.", "anchors": ["OpenKalman/filters/KalmanFilter.hpp"]}
{"id": "C53", "title": "Linear transform propagates moments and noise terms correctly", "statement": "For inputs x, n1..nk the linear transform returns mean sum Ji xi, covariance sum Ji Pi Ji*, cross-covariance P0 J0*; missing noise Jacobians act as identity; Cholesky and covariance forms agree; consecutive transforms compose.", "quantifier": "for every number of noise terms and every list of transforms", "why_tests_cant": "Variadic in noise terms and transforms.", "anchors": ["OpenKalman/transforms/LinearTransform.hpp", "OpenKalman/transforms/details/LinearTransformBase.hpp", "OpenKalman/transforms/details/TransformBase.hpp", "OpenKalman/transformations/LinearTransformation.hpp", "OpenKalman/transforms/IdentityTransform.hpp"]}
{"id": "C54", "title": "Recursive least squares", "statement": "The RLS transform scales the covariance by 1/lambda; repeated RLS predict/update yields the exponentially weighted least squares information matrix.", "quantifier": "for every history and forgetting factor in (0,1]", "why_tests_cant": "Unbounded history.", "anchors": ["OpenKalman/transforms/RecursiveLeastSquaresTransform.hpp"]}
{"id": "C55", "title": "Second-order linearised transform", "statement": "Second-order corrections are symmetric positive semidefinite, vanish for zero Hessians, and are exact for quadratic functions of a Gaussian in the mean (half trace term).", "quantifier": "for all sizes and contents", "why_tests_cant": "All matrices.", "anchors": ["OpenKalman/transforms/LinearizedTransform.hpp"]}
{"id": "C56", "title": "Cubature points match the first two moments", "statement": "Cubature points of an input with covariance P reproduce mean and covariance exactly for every dimension and every split of the state into blocks; weights sum to one; affine functions are propagated exactly.", "quantifier": "for every dimension, block structure, covariance and affine map", "why_tests_cant": "Unbounded dimension/blocks.", "anchors": ["OpenKalman/transforms/sample-points/CubaturePoints.hpp", "OpenKalman/transforms/details/ScaledSigmaPointsBase.hpp", "OpenKalman/transforms/SamplePointsTransform.hpp"]}
{"id": "C57", "title": "Unscented points match the first two moments", "statement": "Scaled unscented points reproduce mean and covariance exactly for every alpha,beta,kappa,dimension with nonzero scaling; mean weights sum to one; affine functions are propagated exactly, including the cross covariance.", "quantifier": "for all parameters, dimensions, covariances, affine maps", "why_tests_cant": "Continuum of parameters, unbounded dimension.", "anchors": ["OpenKalman/transforms/sample-points/Unscented.hpp", "OpenKalman/transforms/details/ScaledSigmaPointsBase.hpp"]}
{"id": "C58", "title": "Spherical simplex points are well defined and match moments", "statement": "Spherical simplex sigma points are finite and reproduce mean and covariance for every dimension.", "quantifier": "for every dimension", "why_tests_cant": "Recursive construction over dimension.", "anchors": ["OpenKalman/transforms/sample-points/SphericalSimplex.hpp"]}
{"id": "C59", "title": "Monte Carlo statistics do not depend on the reduction schedule", "statement": "The parallel reduction of partial statistics gives the sample mean, unbiased covariance and cross covariance of the samples for every association, permutation and identity insertion the parallel algorithm may choose.", "quantifier": "for every sample list with at least two samples and every reduction tree", "why_tests_cant": "Number of schedules is super-exponential.", "anchors": ["OpenKalman/transforms/MonteCarloTransform.hpp"]}
{"id": "C60", "title": "Gaussian distribution arithmetic", "statement": "Sum, scaling by matrix or scalar, concatenation and splitting of Gaussian distributions give valid distributions with the moments of the corresponding independent random vectors; difference does too.", "quantifier": "for all dimensions and contents", "why_tests_cant": "All matrices.", "anchors": ["OpenKalman/distributions/GaussianDistribution.hpp"]}
{"id": "C61", "title": "Gaussian log-likelihood and entropy", "statement": "log_likelihood of i.i.d. observations equals the sum of log densities; entropy (bits) equals half log2 of (2 pi e)^n det Sigma.", "quantifier": "for every dimension, positive definite covariance and observation list", "why_tests_cant": "All matrices and lists.", "anchors": ["OpenKalman/distributions/GaussianDistribution.hpp: log_likelihood, entropy"]}
{"id": "C62", "title": "Finite-difference linearisation", "statement": "Numerical Jacobian and Hessian leave the evaluation point unchanged, are exact for quadratic functions for every step size, and the Hessian is symmetric for every function.", "quantifier": "for every function, point, nonzero steps", "why_tests_cant": "All functions; in-place perturb/restore.", "anchors": ["OpenKalman/transformations/FiniteDifferenceLinearization.hpp"]}
{"id": "C65", "title": "Iterations and series of the elementary functions converge", "statement": "The Newton iteration for square roots and the Halley iteration for logarithms converge to the root and the logarithm from the starting values used, and the recursively summed series for exp, sin, cos, log1p and asin converge to those functions.", "quantifier": "for every real argument in the domain (for the series, in the reduced interval)", "why_tests_cant": "Limits of sequences over a continuum of arguments; tests compare a few values to a tolerance.", "anchors": ["OpenKalman/values/math/sqrt.hpp", "OpenKalman/values/math/internal/log_utils.hpp", "OpenKalman/values/math/internal/exp_utils.hpp", "OpenKalman/values/math/internal/asin_utils.hpp", "OpenKalman/values/math/internal/periodic_utils.hpp"]}
{"id": "C66", "title": "Periodic range reduction", "statement": "The reduction of an angle before sin and cos ends for every angle, returns the angle less a whole number of turns and within the documented half turn, and sin and cos evaluated after it are those of the given angle.", "quantifier": "for every finite real angle", "why_tests_cant": "Unbounded number of correction rounds, integer overflow at a boundary, continuum of angles.", "anchors": ["OpenKalman/values/math/internal/periodic_utils.hpp", "OpenKalman/values/math/sin.hpp", "OpenKalman/values/math/cos.hpp"]}
{"id": "C67", "title": "Complex exponential, hyperbolic, trigonometric and inverse functions", "statement": "exp, expm1, sinh, cosh, tanh, sin, cos, tan of complex numbers equal the mathematical functions; asinh, acosh, atanh and atan are right inverses of sinh, cosh, tanh and tan wherever these have an inverse image, and the real versions equal the real inverse functions on their domains and give no number elsewhere.", "quantifier": "for every complex number in the range of the integer conversions (forward functions), for every complex number (inverse functions)", "why_tests_cant": "Continuum with branch cuts and poles.", "anchors": ["OpenKalman/values/math/exp.hpp", "OpenKalman/values/math/expm1.hpp", "OpenKalman/values/math/sinh.hpp", "OpenKalman/values/math/cosh.hpp", "OpenKalman/values/math/tanh.hpp", "OpenKalman/values/math/sin.hpp", "OpenKalman/values/math/cos.hpp", "OpenKalman/values/math/tan.hpp", "OpenKalman/values/math/asinh.hpp", "OpenKalman/values/math/acosh.hpp", "OpenKalman/values/math/atanh.hpp", "OpenKalman/values/math/internal/atan_utils.hpp"]}
{"id": "C63", "title": "Concatenating and splitting covariances", "statement": "Concatenating covariances or square-root covariances (in either stored form) gives the object representing the block-diagonal matrix; splitting gives the objects representing the diagonal blocks; splitting undoes concatenation.", "quantifier": "for every number of operands, every size and content, every stored form", "why_tests_cant": "All matrices and block sizes; depends on the interplay of the stored form with the wrapper.", "anchors": ["OpenKalman/linear-algebra/adapters/details/covariance-overloads.hpp: concatenate, split_diagonal, split_cov_diag_impl"]}
{"id": "C64", "title": "Filter and transform steps do not depend on the form in which a covariance is stored", "statement": "For distributions with given moments, linear transforms, Kalman updates, whole runs of predict and update, and the sample points of the unscented and cubature transforms give the same moments whether each covariance is stored as a self-adjoint matrix, a diagonal matrix, a lower Cholesky factor or an upper Cholesky factor; the moments are the exact ones.", "quantifier": "for every dimension, all means, covariances, Jacobians and measurements, every stored form of every operand, every sequence of predict and update operations", "why_tests_cant": "The number of combinations of forms multiplies with every operand and every step of a run, and the contents range over all matrices.", "anchors": ["OpenKalman/transforms/details/LinearTransformBase.hpp:52-91", "OpenKalman/transforms/details/LinearTransformBase.hpp:109-143", "OpenKalman/filters/KalmanFilter.hpp:41-77", "OpenKalman/transforms/sample-points/CubaturePoints.hpp:60", "OpenKalman/transforms/sample-points/Unscented.hpp:151", "OpenKalman/transforms/IdentityTransform.hpp:78-82", "OpenKalman/linear-algebra/adapters/Covariance.hpp:526-554"]}
{"id": "C68", "title": "Sampling from a Gaussian distribution", "statement": "GaussianDistribution::operator() maps independent standard normal numbers to a vector whose law is Gaussian with the mean and covariance of the distribution, in every stored form of the covariance (self-adjoint, diagonal, lower or upper Cholesky factor).", "quantifier": "for every dimension, mean and positive definite (positive semidefinite, if not self-adjoint) covariance", "why_tests_cant": "A statement about a probability law; tests only see finitely many samples.", "anchors": ["OpenKalman/distributions/GaussianDistribution.hpp:325-334", "OpenKalman/linear-algebra/adapters/Covariance.hpp:526-554"]}
{"id": "C69", "title": "Traits of coefficient-wise Eigen expressions are true", "statement": "For unary, binary, bound and nullary coefficient-wise expressions, whatever the traits report (a constant value, a constant diagonal, a triangle type, being Hermitian, static extents) holds of the matrix the expression evaluates to, if what the operands report holds of them.", "quantifier": "for every functor in the tables, every size and content (real and complex) on which the functor is defined, every true report about the operands", "why_tests_cant": "The tables have some sixty functors; whether an entry is right is a statement about all matrices and about all combinations of reports of the operands.", "anchors": ["OpenKalman/linear-algebra/interfaces/eigen/traits/functors/unary.hpp", "OpenKalman/linear-algebra/interfaces/eigen/traits/functors/binary.hpp", "OpenKalman/linear-algebra/interfaces/eigen/traits/CwiseUnaryOp.hpp:72-129", "OpenKalman/linear-algebra/interfaces/eigen/traits/CwiseBinaryOp.hpp:74-200", "OpenKalman/linear-algebra/interfaces/eigen/traits/CwiseNullaryOp.hpp:51-76"]}
{"id": "C70", "title": "Traits of structural Eigen expressions, and of expressions of any depth, are true", "statement": "Transposes, replications, reversals, products, triangular and self-adjoint views, selections and diagonals report only what holds of the matrix they evaluate to; so does every expression built from these, coefficient-wise expressions and reductions.", "quantifier": "for every size and content, every true report about the leaves, expressions of any depth", "why_tests_cant": "The set of expressions is infinite, and a false report at one node is passed on by those above it.", "anchors": ["OpenKalman/linear-algebra/interfaces/eigen/traits/Transpose.hpp:43-70", "OpenKalman/linear-algebra/interfaces/eigen/traits/Replicate.hpp:46-90", "OpenKalman/linear-algebra/interfaces/eigen/traits/Reverse.hpp:49-81", "OpenKalman/linear-algebra/interfaces/eigen/traits/Product.hpp:42-114", "OpenKalman/linear-algebra/interfaces/eigen/traits/TriangularView.hpp:58-111", "OpenKalman/linear-algebra/interfaces/eigen/traits/SelfAdjointView.hpp:58-94", "OpenKalman/linear-algebra/interfaces/eigen/traits/Select.hpp:58-143", "OpenKalman/linear-algebra/interfaces/eigen/traits/Diagonal.hpp:43"]}
{"id": "C71", "title": "Constant reported for a reduction of rows or columns", "statement": "If a partial reduction (sum, product, minimum, maximum, norms, all, any, count) of an expression is reported to be constant, the value of every line is that constant; this looks through unary functors and replications.", "quantifier": "for every reduction, direction, size and content, expressions of any depth", "why_tests_cant": "The reported value is computed by a closed formula (a power or root of a size) in place of the loop, and must agree for all sizes.", "anchors": ["OpenKalman/linear-algebra/interfaces/eigen/traits/PartialReduxExpr.hpp:20-143", "OpenKalman/linear-algebra/interfaces/eigen/traits/functors/redux.hpp", "OpenKalman/linear-algebra/interfaces/eigen/traits/functors/functor_composition.hpp"]}
{"id": "C72", "title": "Queries about the shape of an object", "statement": "The index count is the least number of indices after which every object of the type has extent 1; extents, tensor order (the number of extents above 1, or 0 if an extent is 0), maximum order, vector and emptiness queries answer according to the shape; what a concept guarantees holds for every object of the type and what it permits for at least one.", "quantifier": "for every rank, every mixture of compile-time and run-time extents, every index (in range or not), all six comparisons", "why_tests_cant": "Guaranteed and permitted quantify over all objects of a type, and ranks and extents are unbounded.", "anchors": ["OpenKalman/linear-algebra/traits/count_indices.hpp:27-55", "OpenKalman/linear-algebra/traits/index_count.hpp:46-47", "OpenKalman/linear-algebra/traits/get_index_extent.hpp:36-58", "OpenKalman/linear-algebra/traits/tensor_order.hpp:28-93", "OpenKalman/linear-algebra/traits/max_tensor_order.hpp:25-59", "OpenKalman/linear-algebra/traits/is_vector.hpp:25-72", "OpenKalman/linear-algebra/concepts/dimension_size_of_index_is.hpp:31-38", "OpenKalman/linear-algebra/concepts/vector.hpp:26-42", "OpenKalman/linear-algebra/concepts/empty_object.hpp:26-52", "OpenKalman/linear-algebra/traits/dynamic_index_count.hpp:26-57"]}
{"id": "C73", "title": "Access to components with a collection of indices", "statement": "Access with an admitted collection of indices yields the component at those indices; checked access throws exactly if an index is not below its extent (an index beyond the rank has to be 0), and neither has undefined behaviour for admitted indices in range.", "quantifier": "for every rank, extents, collections of indices of compile-time and run-time size and of any length admitted by index_collection_for", "why_tests_cant": "The check and the access walk different ranges (collection length, rank); all relations of the lengths have to be covered, and undefined behaviour may look right when run.", "anchors": ["OpenKalman/linear-algebra/traits/access.hpp:39-76", "OpenKalman/linear-algebra/traits/access_at.hpp:45-50", "OpenKalman/linear-algebra/concepts/index_collection_for.hpp:27-62"]}
{"id": "C74", "title": "patterns_match", "statement": "patterns_match of any number of objects holds iff their pattern collections, continued by the one-dimensional pattern, agree at every index; the compile-time recursion and the run-time loop give the same answer.", "quantifier": "for every number of objects, every rank, stored or derived patterns", "why_tests_cant": "The number of objects and their ranks are unbounded and the comparison stops at a number of indices derived from the types.", "anchors": ["OpenKalman/linear-algebra/traits/patterns_match.hpp:28-75", "OpenKalman/linear-algebra/traits/get_index_pattern.hpp:41-67", "OpenKalman/linear-algebra/traits/get_pattern_collection.hpp:36-48", "OpenKalman/patterns/functions/get_pattern.hpp:39-49"]}
{"id": "C75", "title": "to_extents", "statement": "to_extents of a pattern collection or of extents yields extents of the same shape, with each compile-time extent the dimension it stands for, of the rank asked for or else of the smallest rank possible; it can be instantiated exactly for ranks that lose no extent.", "quantifier": "for every collection of dimensions, compile-time or run-time, every rank", "why_tests_cant": "Ranks and dimensions are unbounded and the result type is computed by recursion on types.", "anchors": ["OpenKalman/patterns/functions/to_extents.hpp"]}
{"id": "C76", "title": "Dimensions of the patterns in a collection", "statement": "compare_collection_patterns_with_dimension and get_common_pattern_collection_dimension (hence is_square_shaped and is_one_dimensional) answer according to the dimensions of the first N patterns, padded with 1, or of all patterns; the corresponding concepts guarantee what holds for every collection of the type and permit what holds for one.", "quantifier": "for every collection (of compile-time, run-time and no size), every N, all six comparisons", "why_tests_cant": "There are shortcuts for collections whose elements share a fixed dimension, and the concepts quantify over all collections of a type.", "anchors": ["OpenKalman/patterns/functions/compare_collection_patterns_with_dimension.hpp:41-121", "OpenKalman/patterns/functions/get_common_pattern_collection_dimension.hpp:37-127", "OpenKalman/patterns/concepts/collection_patterns_compare_with_dimension.hpp:33-75", "OpenKalman/patterns/concepts/collection_patterns_have_same_dimension.hpp:34-101"]}
{"id": "C77", "title": "Conversion of tensors to and from the space for directional statistics", "statement": "to_stat_space of a tensor holds the tensor in which every vector along index 0 is converted by the pattern of index 0, from_stat_space the one in which every vector is converted back, and from_stat_space of to_stat_space wraps every vector along index 0; the adapters never write outside their store and remain valid when copied.", "quantifier": "for every rank, shape, pattern and content", "why_tests_cant": "Rank and extents are unbounded; filling the store in one order and reading it in another agrees or not for all shapes at once; writing past the end of a store or into a vector without elements may look right when run.", "anchors": ["OpenKalman/linear-algebra/adapters/to_stat_space_adapter.hpp:50-121", "OpenKalman/linear-algebra/adapters/from_stat_space_adapter.hpp:55-165", "OpenKalman/linear-algebra/views/range_of.hpp:36-60", "OpenKalman/patterns/functions/to_stat_space_pattern_collection.hpp:37-45"]}
{"id": "C78", "title": "Arithmetic of means with angles", "statement": "A Mean holds canonical numbers after every construction, assignment and in-place operation; sums, differences and multiples stand for the sums, differences and multiples of the points, whatever numbers stand for the points; operators and the corresponding in-place operators agree; means of Euclidean patterns are plain vectors.", "quantifier": "for every pattern of axes and angles, all values, every sequence of operations", "why_tests_cant": "Wrapping happens at some operations and not at others, so the outcome depends on the whole history of a mean and on all representatives of each point.", "anchors": ["OpenKalman/linear-algebra/adapters/Mean.hpp:57-356", "OpenKalman/linear-algebra/adapters/Mean.hpp:419-426", "OpenKalman/linear-algebra/adapters/details/typed-matrix-arithmetic.hpp:23-163"]}
{"id": "C79", "title": "Angles in sample-point transforms and updates", "statement": "With angular outputs, a sample-point transform yields the canonical mean nearest to the outputs and deviations from it; the result does not depend on the numbers standing for the outputs, and turning all outputs turns the mean and leaves the covariance as it is; an update with an angular measurement does not depend on the numbers standing for the angle, and turning everything turns the result.", "quantifier": "for every pattern of axes and angles, every number of points, all weights with sum 1, all outputs, gains and measurements", "why_tests_cant": "Results are right away from the ends of the range of an angle and wrong across them; examples near zero show nothing.", "anchors": ["OpenKalman/transforms/SamplePointsTransform.hpp:126-151", "OpenKalman/transforms/details/ScaledSigmaPointsBase.hpp:117-217", "OpenKalman/transforms/sample-points/CubaturePoints.hpp:140-210", "OpenKalman/filters/KalmanFilter.hpp:60-75"]}
{"id": "C80", "title": "What a tower of adapters says about itself is true", "statement": "For every object built from arrays and constants by conjugate, transpose, triangular, Hermitian, to-diagonal, diagonal-of and pattern adapters, in any order and number, an object that satisfies zero, one_dimensional, square_shaped, triangular_matrix, diagonal_matrix, constant_object, constant_diagonal_object, identity_matrix or hermitian_matrix for sure has the property of its elements and dimensions that the concept stands for, constant_value is the value, and a square object is not ruled out by square_shaped with permitted applicability.", "quantifier": "for every tower of adapters of any height on arrays and constants of any rank, with dimensions fixed or known at run time, real or complex, all element values", "why_tests_cant": "Each adapter rewrites the traits of what it wraps, and mistakes only show in particular combinations of adapters, ranks and fixed dimensions; the combinations are unbounded.", "anchors": ["OpenKalman/linear-algebra/adapters/conjugate_adapter.hpp:78-147", "OpenKalman/linear-algebra/adapters/transpose_adapter.hpp:88-166", "OpenKalman/linear-algebra/adapters/triangular_adapter.hpp:65-131", "OpenKalman/linear-algebra/adapters/hermitian_adapter.hpp:105-189", "OpenKalman/linear-algebra/adapters/to_diagonal_adapter.hpp:122-179", "OpenKalman/linear-algebra/adapters/diagonal_of_adapter.hpp:88-138", "OpenKalman/linear-algebra/adapters/pattern_adapter.hpp:139-186", "OpenKalman/linear-algebra/traits/triangle_type_of.hpp:27-70", "OpenKalman/linear-algebra/concepts/constant_object.hpp:44-55"]}
{"id": "C81", "title": "Checks when adapters are made", "statement": "Making a Hermitian adapter succeeds exactly for square objects and the result is Hermitian, keeps the given triangle and is known to be Hermitian; to_hermitian returns Hermitian objects as they are; pattern_adapter and to_diagonal_adapter are made exactly when the dimensions match the pattern, and a mismatch is found at compile time or by an assertion.", "quantifier": "for every tower of adapters, every triangle, every pattern with dimensions fixed or known at run time, with and without assertions", "why_tests_cant": "Assertions are off in release builds and the compile-time and run-time checks are separate code, chosen by which dimensions are fixed.", "anchors": ["OpenKalman/linear-algebra/adapters/hermitian_adapter.hpp:41-85", "OpenKalman/linear-algebra/functions/to_hermitian.hpp:55-69", "OpenKalman/linear-algebra/adapters/pattern_adapter.hpp:31-76", "OpenKalman/linear-algebra/adapters/to_diagonal_adapter.hpp:31-82", "OpenKalman/linear-algebra/concepts/pattern_collection_for.hpp:50-56"]}
{"id": "C82", "title": "Writing one triangle of an object", "statement": "set_triangle gives the elements of the source to the lower triangle, upper triangle or diagonal of the destination, through any tower of adapters that can hold them; a Hermitian destination stays Hermitian, and no other element changes. A source known to be triangular the other way is refused.", "quantifier": "for every tower of triangular, Hermitian and diagonal adapters of any height on a dense object of any size, each part, every source", "why_tests_cant": "The function recurses through adapters and picks one of several hooks; the tests only use Eigen matrices and Hermitian adapters that keep the triangle being written.", "anchors": ["OpenKalman/linear-algebra/functions/internal/set_triangle.hpp:48-96", "OpenKalman/linear-algebra/interfaces/eigen/eigen-library-interface.hpp:628-694"]}
{"id": "C83", "title": "In-place product", "statement": "contract_in_place replaces A by A B, or by B A if applied on the left, for every special case of zero, identity, diagonal, triangular and dense operands; operands of different size or that are not square are refused.", "quantifier": "for all sizes and element values in a commutative ring, all kinds of operands", "why_tests_cant": "The order of the factors only matters for matrices that do not commute, and each special case has its own code.", "anchors": ["OpenKalman/linear-algebra/functions/contract_in_place.hpp:37-60", "OpenKalman/linear-algebra/interfaces/eigen/eigen-library-interface.hpp:1178-1204"]}
{"id": "C84", "title": "Copying elements between objects", "statement": "After copy_from every element of the destination is the element that the source had at the same position, for matching shapes of any rank; other sizes are refused; nothing outside the destination is touched.", "quantifier": "for mdspans of any rank and extents, fixed or not, and every source, including one that looks at the destination", "why_tests_cant": "Ranks, extents and aliasing are unbounded; the tests copy 2-by-3 arrays without aliasing.", "anchors": ["OpenKalman/linear-algebra/functions/copy_from.hpp:36-85", "OpenKalman/linear-algebra/concepts/copyable_from.hpp:46-55", "OpenKalman/linear-algebra/traits/access.hpp:39-97"]}
{"id": "C85", "title": "Components of Eigen objects and views", "statement": "get_component of an Eigen object is the element of the matrix that the object stands for, a missing index being 0 and more than two throwing; set_component gives one element the value, keeps a self-adjoint view self-adjoint and changes nothing else.", "quantifier": "for all dense matrices, diagonal objects, triangular views of all modes and self-adjoint views, real or complex, all indices and values", "why_tests_cant": "Views store only part of their elements, and each side of the diagonal, mode and scalar type is a separate case.", "anchors": ["OpenKalman/linear-algebra/interfaces/eigen/eigen-library-interface.hpp:51-180"]}
{"id": "C86", "title": "Diagonals of Eigen objects and views", "statement": "diagonal_of an Eigen object has the diagonal elements of the matrix that the object stands for, and to_diagonal of a column vector is the diagonal matrix of its elements, also through views; an object that is not a column vector throws.", "quantifier": "for all dense matrices, diagonal objects and views of all modes, all sizes and values", "why_tests_cant": "The views are skipped, which is right or wrong depending on their mode.", "anchors": ["OpenKalman/linear-algebra/interfaces/eigen/eigen-library-interface.hpp:697-819"]}
{"id": "C87", "title": "Broadcasting by factors", "statement": "broadcast repeats a matrix by the given factors, which have to be positive; trailing factors 1 make no difference.", "quantifier": "for all matrices and lists of factors, fixed or known at run time", "why_tests_cant": "Whether factors are checked depends on which of them are fixed.", "anchors": ["OpenKalman/linear-algebra/functions/broadcast.hpp:49-77", "OpenKalman/linear-algebra/interfaces/eigen/eigen-library-interface.hpp:822-844"]}
{"id": "C88", "title": "Extents of component-wise operations", "statement": "n_ary_operation(op, args...) without patterns gives a result whose extent along each index is the one extent to which all arguments can be stretched (each argument has that extent or 1), refuses arguments for which there is none or of which an extent is 0, and each element of the result is op of the elements of the stretched arguments.", "quantifier": "For all numbers of arguments, ranks, extents (fixed or known at run time), operations and elements.", "why_tests_cant": "Tests use a few small shapes of two or three arguments; whether extents are fixed by the type or not multiplies the cases.", "anchors": ["OpenKalman/linear-algebra/functions/n_ary_operation.hpp:333-496"]}
{"id": "C89", "title": "Elements of component-wise operations", "statement": "n_ary_operation(patterns, op, args...) gives an object with those patterns whose element at each position is op of the elements of the stretched arguments at that position, called with the position if op takes indices; an argument that cannot be stretched to the patterns is refused.", "quantifier": "For all patterns, ranks, operations with or without indices, constant and other arguments.", "why_tests_cant": "The nested loops have any depth and the branches depend on types; tests use matrices of one or two sizes.", "anchors": ["OpenKalman/linear-algebra/functions/n_ary_operation.hpp:30-330"]}
{"id": "C90", "title": "Component-wise operations without arguments", "statement": "n_ary_operation<M, indices...>(patterns, operations...) takes one operation for each combination of positions along the given indices, in row-major order of those indices, and each element of the result comes from the operation of its combination, whatever the layout of the matrix.", "quantifier": "For all patterns, selections of indices, operations and layouts.", "why_tests_cant": "The numbering is computed by recursion over index sequences; tests fix rank 2 and one layout.", "anchors": ["OpenKalman/linear-algebra/functions/n_ary_operation.hpp:499-745", "OpenKalman/linear-algebra/functions/make_dense_object_from.obsolete.hpp:50-58", "OpenKalman/linear-algebra/interfaces/eigen/eigen-library-interface.hpp:422-426"]}
{"id": "C91", "title": "Component-wise operations in place", "statement": "unary_operation_in_place(op, arg) replaces each element x at position j by op(x, j), once for each position.", "quantifier": "For all ranks, extents, operations and writable objects.", "why_tests_cant": "Tests use plain matrices; objects that keep two elements in one place behave differently.", "anchors": ["OpenKalman/linear-algebra/functions/n_ary_operation.hpp:748-846"]}
{"id": "C92", "title": "Two numbers are near exactly if they differ by no more than the tolerance", "statement": "near<f>(a, b) holds exactly if a and b (for complex numbers each of their parts) differ by no more than f times the epsilon of the type of the difference, which is 0 for integral types, and near(a, b, e) with e not negative holds exactly if the modulus of a - b is at most that of e. Fixed arguments give the result that the same numbers give at run time.", "quantifier": "All numbers of all signed, unsigned, floating and complex types, all factors and errors, fixed or not.", "why_tests_cant": "The tests use a few floating numbers; unsigned and mixed types, overflow and negative errors are not tried, and all values cannot be enumerated.", "anchors": ["OpenKalman/values/functions/internal/near.hpp:38-68", "OpenKalman/values/functions/internal/near.hpp:78-113", "OpenKalman/values/functions/operation.hpp:92-108", "OpenKalman/values/interface/number_traits.hpp:78-105"]}
{"id": "C93", "title": "A fixed value compares with a number as the two numbers compare", "statement": "fixed_value_compares_with<T, N, comp, f> applies comp to the order of the value of T and N as numbers, where numbers within f times epsilon are equal; it is false if T is not fixed.", "quantifier": "All values, all numbers N, all comparisons and factors.", "why_tests_cant": "A handful of constants is tried; N is converted to the type of T first, which matters only for numbers that the type cannot represent.", "anchors": ["OpenKalman/values/concepts/fixed_value_compares_with.hpp:28-46", "OpenKalman/values/concepts/fixed_value_compares_with.hpp:68-75"]}
{"id": "C94", "title": "Casting and making complex numbers keeps values", "statement": "cast_to<T> gives a value of type T (or complex with parts of the real type of T) with the same number if that type can represent it, fixed if the argument is; make_complex_number gives the number with the given parts; update_real_part gives the number with the new real part and the old imaginary part.", "quantifier": "All numbers and types, fixed or not.", "why_tests_cant": "Few type combinations are tried, none of them casting to integral parts or mixing signed and unsigned parts.", "anchors": ["OpenKalman/values/functions/cast_to.hpp:85-148", "OpenKalman/values/functions/internal/make_complex_number.hpp:53-173", "OpenKalman/values/functions/internal/update_real_part.hpp:36-54", "OpenKalman/values/traits/real_type_of.hpp:40-48"]}
{"id": "C95", "title": "What the types of two patterns say about a comparison is true of their values", "statement": "If compares_with<T, U, comp, guaranteed> then comp holds of the comparison of every value of T with every value of U; if not compares_with<T, U, comp, permitted> then it holds of none; if the types tell everything, both are equal to the outcome.", "quantifier": "All types of patterns (descriptors, tuples, arrays and ranges of fixed, dynamic, non-Euclidean and type-erased descriptors), all six named comparisons, all values.", "why_tests_cant": "Tests list pairs of types; the verdict must hold for unboundedly many values of each type, and sums of dimensions wrap around silently.", "anchors": ["OpenKalman/patterns/concepts/compares_with.hpp:26-223", "OpenKalman/patterns/concepts/compares_with.hpp:226-455"]}
{"id": "C96", "title": "Uniform patterns are repetitions of one one-dimensional component", "statement": "If uniform_pattern<T> then every value of T is a repetition of uniform_pattern_type<T>, which has one dimension, and conversely; uniform_pattern<T, permitted> holds exactly if some value of T is a repetition of a one-dimensional component.", "quantifier": "All types of patterns, all values.", "why_tests_cant": "Types and values are unbounded families; elements of dimension zero and several spellings of one descriptor are not tried.", "anchors": ["OpenKalman/patterns/concepts/uniform_pattern.hpp:27-137", "OpenKalman/patterns/traits/uniform_pattern_type.hpp:53-67", "OpenKalman/patterns/traits/common_descriptor_type.hpp:43-119"]}
{"id": "C97", "title": "The most fixed pattern", "statement": "most_fixed_pattern accepts patterns that can all be equal, rejects those that cannot, and returns the first of fixed dimension, or else the last.", "quantifier": "All non-empty lists of types of patterns.", "why_tests_cant": "Lists of any length and mixture; conflicts between later patterns are not tried.", "anchors": ["OpenKalman/patterns/functions/internal/most_fixed_pattern.hpp:26-70"]}
{"id": "C98", "title": "Backported comparisons compare numbers and ranges as such", "statement": "cmp_equal, cmp_less and their companions give the comparison of the numbers whatever the signedness and width of the types; compare_three_way gives their order; the operators of partial_ordering agree with its meaning with zero on either side; lexicographical_compare_three_way is decided by the first elements that are not equivalent or else by the lengths.", "quantifier": "All pairs of integer types of 8 to 64 bits, all values; all four orderings; all lists and element comparisons.", "why_tests_cant": "Mixed-sign comparisons fail only for particular values of particular pairs of types, and the backport is not even compiled where the library has the feature.", "anchors": ["OpenKalman/basics/compatibility/comparison.hpp:36-83", "OpenKalman/basics/compatibility/comparison.hpp:98-212"]}
{"id": "C99", "title": "Moving an iterator goes as far as asked, but not beyond the bound", "statement": "advance(i, n) moves by n; advance(i, bound) ends at the bound; advance(i, n, bound) moves by n but not beyond the bound and returns the number of steps not made.", "quantifier": "All positions, numbers of steps and bounds in that direction, all categories of iterators and sentinels.", "why_tests_cant": "The branch is chosen by the concepts the iterator meets; a test of one kind of iterator says nothing of the other branch.", "anchors": ["OpenKalman/basics/compatibility/ranges/range-access.hpp:313-429"]}
{"id": "C100", "title": "Composed views have the elements they should", "statement": "concat_view, reverse_view, transform_view, repeat_view and single_view, composed in any way, have the size and the elements of the corresponding operations on lists; front, back, empty and indexing agree; views::reverse and views::concat unwrap without changing the elements.", "quantifier": "All finite compositions of views over all lists, empty ones included, all indices.", "why_tests_cant": "Compositions are unbounded; the tables of a concatenation depend on the sizes of all parts, and empty parts shift them.", "anchors": ["OpenKalman/basics/compatibility/views/concat.hpp:58-349", "OpenKalman/basics/compatibility/views/reverse.hpp:38-128", "OpenKalman/basics/compatibility/views/transform.hpp:39-265", "OpenKalman/basics/compatibility/views/repeat.hpp:45-180", "OpenKalman/basics/compatibility/views/view_interface.hpp:31-117"]}
{"id": "C101", "title": "Ranges of integers count as integers do", "statement": "Iterators of iota_view over any integer type can be moved forth and back, indexed and subtracted with the results of integer arithmetic; the walk from the first number to the bound gives the numbers between; the size and the distance to the end are the number of them.", "quantifier": "All integer types of 8 to 64 bits, signed or not, all values and offsets for which the result is in the type.", "why_tests_cant": "Promotion, conversion and wrap-around differ with the width and the sign of the type and the values; errors are at the ends of the ranges.", "anchors": ["OpenKalman/basics/compatibility/views/iota.hpp:44-46", "OpenKalman/basics/compatibility/views/iota.hpp:88-207", "OpenKalman/basics/compatibility/views/iota.hpp:264-279", "OpenKalman/basics/compatibility/iterator.hpp:161-166"]}
{"id": "C102", "title": "A box that is assigned holds the value assigned", "statement": "movable_box, which makes views of function objects assignable, holds after copy or move assignment the value of the source, for every type it can hold.", "quantifier": "All combinations of what a type can do (copy and move, by construction and assignment, throwing or not), all values, both language versions.", "why_tests_cant": "Which branch is compiled depends on the traits of the type and the language version; a test with an assignable type never sees the others.", "anchors": ["OpenKalman/basics/compatibility/internal/movable_box.hpp:25-133", "OpenKalman/basics/compatibility/internal/movable_box.hpp:137-287"]}
{"id": "C103", "title": "The size of a collection is the number of its elements", "statement": "The extent that get_size derives from the type of a collection (tuple, array, range, or any tower of standard views on them) is the number of its elements; get_size gives that number whenever all parts have a size, and an unbounded size otherwise.", "quantifier": "All towers of views over all tuples, arrays and ranges, empty ones included.", "why_tests_cant": "Views nest without bound and each has its own rule for the extent; zips of unequal lengths, short windows and empty products are edge cases in combination.", "anchors": ["OpenKalman/collections/functions/get_size.hpp:26-233"]}
{"id": "C104", "title": "Access to an element does not depend on the kind of index", "statement": "get and get_element give the element at the index, whether the index is a constant or known at run time, and refuse constant indices beyond the end; apply calls a function with all elements in order; the same holds for the extents of an mdspan with known and unknown extents.", "quantifier": "All towers of views over all tuples, arrays and ranges, all indices; all lists of static and dynamic extents.", "why_tests_cant": "The two kinds of index are compiled from different branches for each kind of collection.", "anchors": ["OpenKalman/collections/functions/get_element.hpp:64-126", "OpenKalman/collections/functions/apply.hpp:28-52", "OpenKalman/collections/traits/std-extents.hpp:33-49"]}
{"id": "C105", "title": "Flattening a tuple keeps all contents in order", "statement": "tuple_flatten gives the tuple of everything inside of nested tuples that is not itself a tuple, in order from left to right; flattening again changes nothing.", "quantifier": "All nestings of tuples of any depth, empty tuples included.", "why_tests_cant": "Nesting is unbounded, and the recursion stops on a condition over all elements together.", "anchors": ["OpenKalman/collections/functions/internal/tuple_flatten.hpp:27-68"]}
{"id": "C106", "title": "The constant reported of a contraction of tensors is its value", "statement": "If a contraction of two tensors is reported to be constant, then all its elements are that constant: zero if an operand is zero, the product of the constants times the extents of the contracted indices for two constants, and the product of the constants for a constant diagonal matrix and a constant along one pair of indices.", "quantifier": "All tensors of all ranks and extents, and all lists of pairs of contracted indices, over any commutative semiring.", "why_tests_cant": "The factor depends on the ranks, the extents and the choice of pairs; it comes out right whenever all extents are equal.", "anchors": ["OpenKalman/linear-algebra/interfaces/eigen-tensor/traits/TensorContractionOp.hpp:45-95"]}
{"id": "C107", "title": "A contraction reported to be Hermitian is Hermitian", "statement": "If a contraction is reported to be Hermitian (one pair of indices, one operand a constant diagonal matrix and the other Hermitian), then it is equal to its conjugate transpose.", "quantifier": "All square matrices of all sizes, all choices of the contracted indices, all constants.", "why_tests_cant": "All real constants satisfy it; the choice of indices transposes the result.", "anchors": ["OpenKalman/linear-algebra/interfaces/eigen-tensor/traits/TensorContractionOp.hpp:127-129"]}
{"id": "C108", "title": "Eigen reads each element of an adapter as documented", "statement": "Through the evaluators of Hermitian, triangular and diagonal adapters, nested in any way, Eigen reads by two indices the stored elements within the triangle, zeros outside, conjugates across the diagonal of Hermitian adapters and the real part on it; where the flags permit a single index, the element in that place is read.", "quantifier": "All towers of adapters around all matrices and expressions of all sizes, all positions, real and complex numbers.", "why_tests_cant": "Adapters nest without bound, references to temporaries often still read right, and imaginary parts on the diagonal are zero in usual tests.", "anchors": ["OpenKalman/linear-algebra/interfaces/eigen/native-evaluators/HermitianAdapter.hpp:36-110", "OpenKalman/linear-algebra/interfaces/eigen/native-evaluators/TriangularAdapter.hpp:33-87", "OpenKalman/linear-algebra/interfaces/eigen/native-evaluators/DiagonalAdapter.hpp:33-81", "OpenKalman/linear-algebra/interfaces/eigen/native-traits/HermitianAdapter.hpp:35-38"]}
{"id": "C109", "title": "Writing an element of an adapter through Eigen changes that element only", "statement": "After an element of an adapter is written through its Eigen evaluator, it has the new value if it can be non-zero at all, nothing changes if it cannot, and of the other elements only the mirrored one may change, to the new value; it can be written if and only if the matrix inside can be and no adapter is Hermitian with complex numbers.", "quantifier": "All towers of adapters (diagonal ones directly around a column) of all sizes, all positions and values.", "why_tests_cant": "Nested adapters redirect the reference several times, and writes to elements that are always zero go to a hidden variable.", "anchors": ["OpenKalman/linear-algebra/interfaces/eigen/native-evaluators/HermitianAdapter.hpp:44-73", "OpenKalman/linear-algebra/interfaces/eigen/native-evaluators/TriangularAdapter.hpp:43-59", "OpenKalman/linear-algebra/interfaces/eigen/native-evaluators/DiagonalAdapter.hpp:39-57"]}
{"id": "C110", "title": "Extents of multidimensional arrays are those they were made from", "statement": "Extents made of all values, of the values of the open extents only, or of other compatible extents have the shape meant; other numbers of values are refused; reading an extent stays within the stored values; and two extents compare as equal exactly if they have the same rank and the same extents.", "quantifier": "All ranks, all choices of which extents the type fixes, all values that the index type can represent.", "why_tests_cant": "There are exponentially many choices of fixed and open extents, and each reads another place of the stored values.", "anchors": ["OpenKalman/basics/compatibility/std-lib-reference/mdspan-reference-implementation/include/experimental/__p0009_bits/extents.hpp:61-345", "OpenKalman/basics/compatibility/std-lib-reference/mdspan-reference-implementation/include/experimental/__p0009_bits/extents.hpp:389-528", "OpenKalman/basics/compatibility/mdspan.hpp:25-60"]}
{"id": "C111", "title": "Column-major and row-major layouts number the elements of an array", "statement": "Positions of the column-major and row-major mappings are exactly the numbers below the reported size, each for one index; they are the sums of indices times reported strides; and size and emptiness of a multidimensional span are those of its shape.", "quantifier": "All ranks and extents whose product is representable, all indices in bounds.", "why_tests_cant": "Rank is unbounded; order of factors shows only in shapes of different extents and rank above two.", "anchors": ["OpenKalman/basics/compatibility/std-lib-reference/mdspan-reference-implementation/include/experimental/__p0009_bits/layout_left.hpp:46-62", "OpenKalman/basics/compatibility/std-lib-reference/mdspan-reference-implementation/include/experimental/__p0009_bits/layout_left.hpp:145-188", "OpenKalman/basics/compatibility/std-lib-reference/mdspan-reference-implementation/include/experimental/__p0009_bits/layout_right.hpp:47-67", "OpenKalman/basics/compatibility/std-lib-reference/mdspan-reference-implementation/include/experimental/__p0009_bits/layout_right.hpp:150-190", "OpenKalman/basics/compatibility/std-lib-reference/mdspan-reference-implementation/include/experimental/__p0009_bits/mdspan.hpp:45-53"]}
{"id": "C112", "title": "Strided layouts report what they are and convert without moving elements", "statement": "The size a strided mapping reports is the memory it needs; it is unique and exhaustive exactly if it says so; conversion to and from column-major and row-major mappings keeps every position; and mappings that compare as equal have equal shape and positions.", "quantifier": "All ranks, extents and strides with representable positions.", "why_tests_cant": "Strides are arbitrary numbers, and overlap or gaps depend on all of them together.", "anchors": ["OpenKalman/basics/compatibility/std-lib-reference/mdspan-reference-implementation/include/experimental/__p0009_bits/layout_stride.hpp:150-420", "OpenKalman/basics/compatibility/std-lib-reference/mdspan-reference-implementation/include/experimental/__p0009_bits/layout_left.hpp:111-138", "OpenKalman/basics/compatibility/std-lib-reference/mdspan-reference-implementation/include/experimental/__p0009_bits/layout_right.hpp:116-145"]}
{"id": "C113", "title": "A part of a multidimensional array refers to the elements that were chosen", "statement": "For slices by index, range, step or everything in each rank, the part has the shape of what is kept, and its mapping and offset lead each of its indices to the element of the original chosen for it, whether the layout is kept or becomes strided.", "quantifier": "All ranks, extents, layouts, lists of slices within the extents, static or not, all indices.", "why_tests_cant": "The layout of the result depends on the whole list of slices, of which there are exponentially many.", "anchors": ["OpenKalman/basics/compatibility/std-lib-reference/mdspan-reference-implementation/include/experimental/__p2630_bits/submdspan_extents.hpp:23-319", "OpenKalman/basics/compatibility/std-lib-reference/mdspan-reference-implementation/include/experimental/__p2630_bits/submdspan_mapping.hpp:24-280", "OpenKalman/basics/compatibility/std-lib-reference/mdspan-reference-implementation/include/experimental/__p2630_bits/strided_slice.hpp:24-47"]}
{"id": "C114", "title": "The Monte Carlo transform reports sample statistics for angular inputs", "statement": "For inputs whose pattern has axes and angles the Monte Carlo transform reports the sample mean and covariance of the outputs and the sample cross-covariance of inputs and outputs, whatever the order and grouping in which it combines the samples.", "quantifier": "All patterns of axes and angles, all lists of at least two samples, all orders and groupings of the reduction.", "why_tests_cant": "The reduction is parallel, so that order and grouping vary from run to run; tests use Euclidean inputs or tolerances.", "anchors": ["OpenKalman/transforms/MonteCarloTransform.hpp:93-163", "OpenKalman/transforms/MonteCarloTransform.hpp:277-292", "OpenKalman/linear-algebra/adapters/details/typed-matrix-arithmetic.hpp:23-124"]}
{"id": "C115", "title": "Conversions among Matrix, Mean and EuclideanMean keep the point", "statement": "Converting a typed column between Matrix, Mean and EuclideanMean, by any chain of constructors, yields an object that stands for the same point of the pattern's space; chains ending in Mean or EuclideanMean are determined by the point alone; assigning to a EuclideanMean is the same as constructing one.", "quantifier": "All patterns of axes and angles, all columns, all chains of conversions.", "why_tests_cant": "Chains and angles are unbounded; tests convert once, with sample angles, and never assign a Mean of a Euclidean pattern to a EuclideanMean.", "anchors": ["OpenKalman/linear-algebra/adapters/Matrix.hpp:58-94", "OpenKalman/linear-algebra/adapters/Matrix.hpp:138-192", "OpenKalman/linear-algebra/adapters/EuclideanMean.hpp:57-89", "OpenKalman/linear-algebra/adapters/EuclideanMean.hpp:105-157", "OpenKalman/linear-algebra/adapters/Mean.hpp:57-103"]}
{"id": "C116", "title": "The traits of reshaped Eigen matrices are true of the reshaped matrix", "statement": "The dimensions, constants, constant diagonals, triangles, Hermitian property, squareness and one-dimensionality that the traits of Eigen::Reshaped report are those of the reshaped matrix, in either storage order; what holds is reported as at least permitted.", "quantifier": "All matrices, all extents known or unknown at compile time with equal numbers of components, both orders.", "why_tests_cant": "The reports depend on four extents each of which may be dynamic; tests try a few static ones.", "anchors": ["OpenKalman/linear-algebra/interfaces/eigen/traits/Reshaped.hpp:45-50", "OpenKalman/linear-algebra/interfaces/eigen/traits/Reshaped.hpp:58-84", "OpenKalman/linear-algebra/interfaces/eigen/traits/Reshaped.hpp:95-138"]}
{"id": "C117", "title": "The traits of diagonal Eigen objects and the numbers of indices of Eigen objects are right", "statement": "DiagonalWrapper and DiagonalMatrix are reported with their dimension, constant diagonal, one-dimensionality and squareness in the first N indices; and every extent past the reported number of indices of an Eigen object is 1.", "quantifier": "All vectors, all extents known or unknown at compile time, all N.", "why_tests_cant": "Squareness is asked for every N and both applicabilities; tests cover N = 2 of a few types.", "anchors": ["OpenKalman/linear-algebra/interfaces/eigen/traits/DiagonalWrapper.hpp:36-78", "OpenKalman/linear-algebra/interfaces/eigen/traits/DiagonalMatrix.hpp:38-78", "OpenKalman/linear-algebra/interfaces/eigen/traits/indexible_object_traits_base.hpp:43-53", "OpenKalman/linear-algebra/interfaces/eigen/traits/VectorBlock.hpp:35-40", "OpenKalman/linear-algebra/interfaces/eigen/traits/VectorWiseOp.hpp:30", "OpenKalman/linear-algebra/concepts/square_shaped.hpp:57-66"]}
{"id": "C118", "title": "Vector reductions and component-wise operations of the bundled linear algebra library", "statement": "dot, dotc and vector_abs_sum add exactly the stated sums to init; vector_idx_abs_max gives the first index of a component of largest magnitude; add, copy, swap_elements and scale write every component in range exactly once from the old values and nothing else.", "quantifier": "All extents, all real or complex vectors, all initial values.", "why_tests_cant": "Tests run a few vectors of fixed length; ties, empty vectors and overlap are not tried.", "anchors": ["OpenKalman/basics/compatibility/std-lib-reference/linalg-reference-implementation/include/experimental/__p1673_bits/blas1_dot.hpp:66-82", "OpenKalman/basics/compatibility/std-lib-reference/linalg-reference-implementation/include/experimental/__p1673_bits/blas1_dot.hpp:147-153", "OpenKalman/basics/compatibility/std-lib-reference/linalg-reference-implementation/include/experimental/__p1673_bits/blas1_vector_abs_sum.hpp:57-83", "OpenKalman/basics/compatibility/std-lib-reference/linalg-reference-implementation/include/experimental/__p1673_bits/blas1_vector_idx_abs_max.hpp:50-92", "OpenKalman/basics/compatibility/std-lib-reference/linalg-reference-implementation/include/experimental/__p1673_bits/blas1_linalg_add.hpp:58-61", "OpenKalman/basics/compatibility/std-lib-reference/linalg-reference-implementation/include/experimental/__p1673_bits/blas1_linalg_swap.hpp:51-53", "OpenKalman/basics/compatibility/std-lib-reference/linalg-reference-implementation/include/experimental/__p1673_bits/blas1_scale.hpp:38-58"]}
{"id": "C119", "title": "Norms of the bundled linear algebra library", "statement": "The scaled sum of squares keeps scale² times sum; vector_two_norm, matrix_frob_norm, matrix_inf_norm and matrix_one_norm return init plus the Euclidean norm, the Frobenius norm, the largest row sum and the largest column sum of magnitudes.", "quantifier": "All extents, all real or complex vectors and matrices, all initial values.", "why_tests_cant": "Whether the scaling is right depends on the order of the magnitudes; a test with ascending numbers passes although the Frobenius norm is wrong.", "anchors": ["OpenKalman/basics/compatibility/std-lib-reference/linalg-reference-implementation/include/experimental/__p1673_bits/blas1_vector_sum_of_squares.hpp:66-101", "OpenKalman/basics/compatibility/std-lib-reference/linalg-reference-implementation/include/experimental/__p1673_bits/blas1_vector_norm2.hpp:58-75", "OpenKalman/basics/compatibility/std-lib-reference/linalg-reference-implementation/include/experimental/__p1673_bits/blas1_matrix_frob_norm.hpp:62-101", "OpenKalman/basics/compatibility/std-lib-reference/linalg-reference-implementation/include/experimental/__p1673_bits/blas1_matrix_inf_norm.hpp:63-90", "OpenKalman/basics/compatibility/std-lib-reference/linalg-reference-implementation/include/experimental/__p1673_bits/blas1_matrix_one_norm.hpp:64-93"]}
{"id": "C120", "title": "Matrix-vector products of the bundled linear algebra library", "statement": "matrix_vector_product, symmetric_, hermitian_ and triangular_matrix_vector_product store (or add to a given vector) the product with the matrix that the array and the triangle stand for, elsewhere or in place; the other triangle is never read, nothing past the output is written and what the output held before does not matter.", "quantifier": "All extents, both triangles, both kinds of diagonal, all real or complex matrices and vectors.", "why_tests_cant": "Tests use one fixed size with a full symmetric array, so that reading the wrong triangle or a wrong order of the in-place loop goes unseen.", "anchors": ["OpenKalman/basics/compatibility/std-lib-reference/linalg-reference-implementation/include/experimental/__p1673_bits/blas2_matrix_vector_product.hpp:276-281", "OpenKalman/basics/compatibility/std-lib-reference/linalg-reference-implementation/include/experimental/__p1673_bits/blas2_matrix_vector_product.hpp:395-400", "OpenKalman/basics/compatibility/std-lib-reference/linalg-reference-implementation/include/experimental/__p1673_bits/blas2_matrix_vector_product.hpp:498-533", "OpenKalman/basics/compatibility/std-lib-reference/linalg-reference-implementation/include/experimental/__p1673_bits/blas2_matrix_vector_product.hpp:618-656", "OpenKalman/basics/compatibility/std-lib-reference/linalg-reference-implementation/include/experimental/__p1673_bits/blas2_matrix_vector_product.hpp:751-787", "OpenKalman/basics/compatibility/std-lib-reference/linalg-reference-implementation/include/experimental/__p1673_bits/blas2_matrix_vector_product.hpp:878-916", "OpenKalman/basics/compatibility/std-lib-reference/linalg-reference-implementation/include/experimental/__p1673_bits/blas2_matrix_vector_product.hpp:1012-1052", "OpenKalman/basics/compatibility/std-lib-reference/linalg-reference-implementation/include/experimental/__p1673_bits/blas2_matrix_vector_product.hpp:1152-1197", "OpenKalman/basics/compatibility/std-lib-reference/linalg-reference-implementation/include/experimental/__p1673_bits/blas2_matrix_vector_product.hpp:1297-1332"]}
{"id": "C121", "title": "Triangular solution for a vector in the bundled linear algebra library", "statement": "triangular_matrix_vector_solve stores a vector x with A x = b, if the diagonal components that are used can be divided by; it is the only one and solving undoes the product in place.", "quantifier": "All extents, both triangles, both kinds of diagonal, all matrices without zeros on a stored diagonal, all right-hand sides.", "why_tests_cant": "A solver is checked on a few systems of fixed size; the loop running down from the last row is exercised for one length.", "anchors": ["OpenKalman/basics/compatibility/std-lib-reference/linalg-reference-implementation/include/experimental/__p1673_bits/blas2_matrix_vector_solve.hpp:45-79", "OpenKalman/basics/compatibility/std-lib-reference/linalg-reference-implementation/include/experimental/__p1673_bits/blas2_matrix_vector_solve.hpp:121-152", "OpenKalman/basics/compatibility/std-lib-reference/linalg-reference-implementation/include/experimental/__p1673_bits/blas2_matrix_vector_solve.hpp:220-235"]}
{"id": "C122", "title": "Matrix products of the bundled linear algebra library", "statement": "matrix_product and the symmetric, Hermitian and triangular products from the left and from the right, with or without a matrix to add, and the triangular products in place, store exactly the product with the matrix that the array and the triangle stand for, and nothing else.", "quantifier": "All extents, both triangles, both kinds of diagonal, all real or complex matrices.", "why_tests_cant": "There are sixteen loops with their own bounds, each tested on one or two sizes.", "anchors": ["OpenKalman/basics/compatibility/std-lib-reference/linalg-reference-implementation/include/experimental/__p1673_bits/blas3_matrix_product.hpp:744-751", "OpenKalman/basics/compatibility/std-lib-reference/linalg-reference-implementation/include/experimental/__p1673_bits/blas3_matrix_product.hpp:829-836", "OpenKalman/basics/compatibility/std-lib-reference/linalg-reference-implementation/include/experimental/__p1673_bits/blas3_matrix_product.hpp:919-958", "OpenKalman/basics/compatibility/std-lib-reference/linalg-reference-implementation/include/experimental/__p1673_bits/blas3_matrix_product.hpp:1033-1070", "OpenKalman/basics/compatibility/std-lib-reference/linalg-reference-implementation/include/experimental/__p1673_bits/blas3_matrix_product.hpp:1407-1437", "OpenKalman/basics/compatibility/std-lib-reference/linalg-reference-implementation/include/experimental/__p1673_bits/blas3_matrix_product.hpp:1501-1540", "OpenKalman/basics/compatibility/std-lib-reference/linalg-reference-implementation/include/experimental/__p1673_bits/blas3_matrix_product.hpp:1605-1633", "OpenKalman/basics/compatibility/std-lib-reference/linalg-reference-implementation/include/experimental/__p1673_bits/blas3_matrix_product.hpp:1708-1736", "OpenKalman/basics/compatibility/std-lib-reference/linalg-reference-implementation/include/experimental/__p1673_bits/blas3_matrix_product.hpp:2045-2079", "OpenKalman/basics/compatibility/std-lib-reference/linalg-reference-implementation/include/experimental/__p1673_bits/blas3_matrix_product.hpp:2153-2187"]}
{"id": "C123", "title": "Triangular solution for a matrix in the bundled linear algebra library", "statement": "triangular_matrix_matrix_left_solve and _right_solve store X with A X = B or X A = B if no used diagonal component is zero, and undo the products in place.", "quantifier": "All extents, both triangles, both kinds of diagonal, all matrices without zeros on a stored diagonal.", "why_tests_cant": "Few fixed sizes; the right solver has loops of its own in the opposite order.", "anchors": ["OpenKalman/basics/compatibility/std-lib-reference/linalg-reference-implementation/include/experimental/__p1673_bits/blas3_triangular_matrix_matrix_solve.hpp:34-107", "OpenKalman/basics/compatibility/std-lib-reference/linalg-reference-implementation/include/experimental/__p1673_bits/blas3_triangular_matrix_matrix_solve.hpp:115-181", "OpenKalman/basics/compatibility/std-lib-reference/linalg-reference-implementation/include/experimental/__p1673_bits/blas3_triangular_matrix_matrix_solve.hpp:264-278", "OpenKalman/basics/compatibility/std-lib-reference/linalg-reference-implementation/include/experimental/__p1673_bits/blas3_triangular_matrix_matrix_solve.hpp:333-347"]}
{"id": "C124", "title": "Low-rank updates of the bundled linear algebra library", "statement": "The general, symmetric and Hermitian rank-1, rank-2, rank-k and rank-2k updates add α x xᵀ, x yᵀ + y xᵀ, α A Aᵀ, A Bᵀ + B Aᵀ (with conjugates for Hermitian ones) to the matrix given by the triangle, store it, or store it plus a given matrix, and touch nothing outside the triangle; the Hermitian ones leave a real diagonal if the factor is real.", "quantifier": "All extents, both triangles, with and without factor, with and without LINALG_FIX_RANK_UPDATES, all real or complex inputs; real factors for Hermitian updates.", "why_tests_cant": "Each overload has its own loops by rows or columns; tests take one size and mostly real numbers.", "anchors": ["OpenKalman/basics/compatibility/std-lib-reference/linalg-reference-implementation/include/experimental/__p1673_bits/blas2_matrix_rank_1_update.hpp:366-379", "OpenKalman/basics/compatibility/std-lib-reference/linalg-reference-implementation/include/experimental/__p1673_bits/blas2_matrix_rank_1_update.hpp:406-417", "OpenKalman/basics/compatibility/std-lib-reference/linalg-reference-implementation/include/experimental/__p1673_bits/blas2_matrix_rank_1_update.hpp:690-718", "OpenKalman/basics/compatibility/std-lib-reference/linalg-reference-implementation/include/experimental/__p1673_bits/blas2_matrix_rank_1_update.hpp:1218-1257", "OpenKalman/basics/compatibility/std-lib-reference/linalg-reference-implementation/include/experimental/__p1673_bits/blas2_matrix_rank_2_update.hpp:198-214", "OpenKalman/basics/compatibility/std-lib-reference/linalg-reference-implementation/include/experimental/__p1673_bits/blas2_matrix_rank_2_update.hpp:471-493", "OpenKalman/basics/compatibility/std-lib-reference/linalg-reference-implementation/include/experimental/__p1673_bits/blas3_matrix_rank_k_update.hpp:264-284", "OpenKalman/basics/compatibility/std-lib-reference/linalg-reference-implementation/include/experimental/__p1673_bits/blas3_matrix_rank_k_update.hpp:720-746", "OpenKalman/basics/compatibility/std-lib-reference/linalg-reference-implementation/include/experimental/__p1673_bits/blas3_matrix_rank_2k_update.hpp:168-189", "OpenKalman/basics/compatibility/std-lib-reference/linalg-reference-implementation/include/experimental/__p1673_bits/blas3_matrix_rank_2k_update.hpp:377-401"]}
{"id": "C125", "title": "Real plane rotations of the bundled linear algebra library", "statement": "setup_givens_rotation for real numbers ends and gives c, s, r with c² + s² = 1, c f + s g = r and c g - s f = 0, with a positive c if |f| > |g|, whether or not the numbers are rescaled; apply_givens_rotation rotates each pair of components, keeps lengths and is undone by the rotation the other way.", "quantifier": "All real f and g, all scaling constants between 0 and 1, all vectors.", "why_tests_cant": "The rescaling loops run only for numbers near the ends of the range of the type.", "anchors": ["OpenKalman/basics/compatibility/std-lib-reference/linalg-reference-implementation/include/experimental/__p1673_bits/blas1_givens.hpp:88-190", "OpenKalman/basics/compatibility/std-lib-reference/linalg-reference-implementation/include/experimental/__p1673_bits/blas1_givens.hpp:363-381"]}
{"id": "C126", "title": "Complex plane rotations of the bundled linear algebra library", "statement": "setup_givens_rotation for complex numbers ends and gives a real c and complex s, r with c² + |s|² = 1 (up to rounding size), c f + s g = r and c g - s̄ f = 0; apply_givens_rotation with a complex sine rotates each pair, keeps lengths and is undone.", "quantifier": "All complex f and g, all scaling constants with 0 < safmin < safmn2² < 1, all vectors.", "why_tests_cant": "The loop that scales r back for tiny numbers runs only below 1e-292; tests use ordinary numbers.", "anchors": ["OpenKalman/basics/compatibility/std-lib-reference/linalg-reference-implementation/include/experimental/__p1673_bits/blas1_givens.hpp:194-210", "OpenKalman/basics/compatibility/std-lib-reference/linalg-reference-implementation/include/experimental/__p1673_bits/blas1_givens.hpp:213-347", "OpenKalman/basics/compatibility/std-lib-reference/linalg-reference-implementation/include/experimental/__p1673_bits/blas1_givens.hpp:341-343", "OpenKalman/basics/compatibility/std-lib-reference/linalg-reference-implementation/include/experimental/__p1673_bits/blas1_givens.hpp:458-477"]}
{"id": "C127", "title": "Transposed views of the bundled linear algebra library", "statement": "transposed(a) has the extents of a swapped, static ones included, keeps its component (i, j) at the place of memory at which a keeps (j, i), and has the strides swapped; transposing twice gives back a.", "quantifier": "All views of rank two: left, right and strided layouts, layouts of the user's own, any accessor, any mixture of static and dynamic extents.", "why_tests_cant": "The specialisation for a layout that transposed has made itself is a template that no test instantiates.", "anchors": ["OpenKalman/basics/compatibility/std-lib-reference/linalg-reference-implementation/include/experimental/__p1673_bits/transposed.hpp:44-73", "OpenKalman/basics/compatibility/std-lib-reference/linalg-reference-implementation/include/experimental/__p1673_bits/transposed.hpp:75-169", "OpenKalman/basics/compatibility/std-lib-reference/linalg-reference-implementation/include/experimental/__p1673_bits/transposed.hpp:192-254", "OpenKalman/basics/compatibility/std-lib-reference/linalg-reference-implementation/include/experimental/__p1673_bits/transposed.hpp:327-343"]}
{"id": "C128", "title": "Conjugated and scaled views of the bundled linear algebra library", "statement": "conjugated(a) shows the conjugates, also when a is conjugated already, and twice gives back a; scaled(s, a) shows the components times s; conjugate_transposed(a) shows the conjugate transpose and twice shows a.", "quantifier": "All views, with any nesting of conjugated and scaled accessors.", "why_tests_cant": "There is no bound on how the accessors are nested.", "anchors": ["OpenKalman/basics/compatibility/std-lib-reference/linalg-reference-implementation/include/experimental/__p1673_bits/conjugated.hpp:28-115", "OpenKalman/basics/compatibility/std-lib-reference/linalg-reference-implementation/include/experimental/__p1673_bits/scaled.hpp:28-107", "OpenKalman/basics/compatibility/std-lib-reference/linalg-reference-implementation/include/experimental/__p1673_bits/conjugate_transposed.hpp:29-33"]}
{"id": "C129", "title": "randomize draws each element once from its own distribution", "statement": "randomize draws every element of the result exactly once, from the distribution documented for its position (one for all elements, for each row, for each column or for each element in row-major order); numbers are taken as they are; the order of the draws does not depend on the values drawn.", "quantifier": "All extents, fixed or dynamic, all choices of indices, all numbers and distributions, all states of the generator, all orders in which a compiler evaluates arguments.", "why_tests_cant": "Tests compare sample means of a few shapes within a tolerance; they see neither which generator state was used nor that nothing is drawn twice.", "anchors": ["OpenKalman/linear-algebra/functions/randomize.hpp:48-70", "OpenKalman/linear-algebra/functions/randomize.hpp:121-140", "OpenKalman/linear-algebra/functions/n_ary_operation.hpp:512-554", "OpenKalman/linear-algebra/functions/n_ary_operation.hpp:632-676"]}
{"id": "C130", "title": "Elements filled by randomize are independent", "statement": "If every draw from a distribution uses a fresh item of a sequence of independent, identically distributed items, the elements of the result are mutually independent, and each has the law of the distribution given for its position (a number has the point mass).", "quantifier": "All measurable spaces of items, all probability measures on streams with independent coordinates, all extents and indices, all measurable distributions.", "why_tests_cant": "Independence of a family of random variables is not visible in samples.", "anchors": ["OpenKalman/linear-algebra/functions/randomize.hpp:48-70", "OpenKalman/linear-algebra/functions/randomize.hpp:121-140", "OpenKalman/linear-algebra/functions/n_ary_operation.hpp:512-554", "OpenKalman/linear-algebra/functions/n_ary_operation.hpp:632-676"]}
{"id": "C131", "title": "The filter is the best linear unbiased estimator", "statement": "After any sequence of linear moves and measurements of a system whose initial state and noises are square integrable and mutually uncorrelated random vectors, the mean that the filter reports is an affine function of the numbers measured, its error has expectation zero, the covariance of the error is the covariance the filter reports (in covariance and in square-root form) and does not depend on the measurements, the error is uncorrelated with everything measured, and no other affine function of the measurements has a smaller matrix of squared errors.", "quantifier": "for every probability space, every distribution of the initial state and the noises with second moments, every sequence of moves and measurements, all sizes (which may change) and matrices, every affine estimator", "why_tests_cant": "Quantifies over distributions, over unbounded histories and over all competing estimators.", "anchors": ["OpenKalman/filters/KalmanFilter.hpp: predict, update", "OpenKalman/transforms/LinearTransform.hpp", "OpenKalman/transforms/details/LinearTransformBase.hpp"]}
{"id": "C132", "title": "For Gaussian systems the filter computes the conditional distribution", "statement": "If in addition the initial state and the noises are jointly Gaussian (in particular if they are independent and each is Gaussian), then given all measurements the state is normal with the mean and covariance that the filter reports: the mean is the conditional expectation of the state, and the error is independent of the measurements and normal with the reported covariance.", "quantifier": "for every probability space, every jointly Gaussian initial state and noises, every sequence of moves and measurements, all sizes and matrices", "why_tests_cant": "A conditional distribution cannot be observed; histories and matrices are unbounded.", "anchors": ["OpenKalman/filters/KalmanFilter.hpp: predict, update", "OpenKalman/transforms/LinearTransform.hpp", "OpenKalman/transforms/details/LinearTransformBase.hpp"]}
{"id": "C133", "title": "Sample-point transforms are exact for polynomials of low degree", "statement": "For a random vector of input and mutually uncorrelated noise terms whose third central moments vanish (in particular every normal one), the mean reported by the cubature and unscented transforms is the expectation of the transformed vector whenever the transformation is a polynomial of degree at most 3, and the cross-covariance is that of input and output whenever the degree is at most 2.", "quantifier": "for every probability space and law with these moments, all numbers and sizes of noise terms, all polynomials of that degree in all variables jointly, all unscented parameters with alpha nonzero and n + kappa positive", "why_tests_cant": "Expectations are integrals over all outcomes; tests compare with a tolerance for a few functions.", "anchors": ["OpenKalman/transforms/SamplePointsTransform.hpp:126-170", "OpenKalman/transforms/sample-points/CubaturePoints.hpp:146-201", "OpenKalman/transforms/sample-points/Unscented.hpp:108-219", "OpenKalman/transforms/details/ScaledSigmaPointsBase.hpp:124-209"]}
{"id": "C134", "title": "The second-order linearised transform is exact for quadratic functions of normal variables", "statement": "If input and noise terms are independent normal vectors and the transformation is quadratic, then the mean, covariance and cross-covariance reported by LinearizedTransform of order 2, with exact derivatives or with finite differences of any nonzero steps, are those of the transformed vector.", "quantifier": "for every probability space and law with the first four moments of a normal law, all numbers and sizes of noise terms, all quadratic functions, all positive semidefinite covariances, all nonzero steps", "why_tests_cant": "Covariances of transformed variables are integrals; tests compare a few functions with stored numbers.", "anchors": ["OpenKalman/transforms/LinearizedTransform.hpp:59-172", "OpenKalman/transforms/details/LinearTransformBase.hpp:109-126", "OpenKalman/transformations/FiniteDifferenceLinearization.hpp:231-281"]}
{"id": "C135", "title": "With the default parameters the unscented covariance is that of a normal variable to second order", "statement": "Unscented.hpp documents beta = 2 as optimal for Gaussian distributions: with the default parameters (beta = 2, kappa = 0) the covariance that the unscented transform reports for quadratic functions of normal variables is the true one.", "quantifier": "for every normal law, every alpha, all quadratic functions, all variances", "why_tests_cant": "The true covariance is an integral; tests use tolerances and stored numbers.", "anchors": ["OpenKalman/transforms/sample-points/Unscented.hpp:28-41", "OpenKalman/transforms/details/ScaledSigmaPointsBase.hpp:124-209", "OpenKalman/transforms/SamplePointsTransform.hpp:126-170"]}
{"id": "C136", "title": "A filter told too much noise never reports too little covariance", "statement": "If the covariances given to the Kalman filter for the initial state and for every noise are no less (in the positive semidefinite order) than the true ones, then after any sequence of predictions and updates the estimate is unbiased and the reported covariance is no less than the covariance of the true error; hence the probability of an error component of size t is at most the reported variance over t squared.", "quantifier": "for every probability space, all square integrable mutually uncorrelated initial states and noises of any laws, all finite sequences of moves and measurements of any sizes, both forms of the filter", "why_tests_cant": "The true error covariance is an integral over all outcomes; tests run single filters on samples with matching noise.", "anchors": ["OpenKalman/filters/KalmanFilter.hpp:41-76", "OpenKalman/filters/KalmanFilter.hpp:86-102", "OpenKalman/transforms/details/LinearTransformBase.hpp:29-126"]}
{"id": "C137", "title": "The reported covariance is monotone in prior, noise and measurements", "statement": "Of two filters run through the same steps, the one that starts with no more covariance and is told no more noise in any step, and perhaps makes further measurements in between, reports no more covariance in the end, whatever the measured values are.", "quantifier": "for all real and complex filters, all histories, all pairs of priors and noise terms ordered as matrices", "why_tests_cant": "It relates two runs of arbitrary length over all ordered matrices.", "anchors": ["OpenKalman/filters/KalmanFilter.hpp:41-76", "OpenKalman/filters/KalmanFilter.hpp:86-102"]}
{"id": "C138", "title": "A wrong initial mean is never amplified beyond the reported covariance", "statement": "The final mean is an affine function of the initial mean and the final covariance does not depend on it; if the difference of two initial means is covered by a multiple of the initial covariance, then after any history the difference of the means is covered by the same multiple of the reported covariance.", "quantifier": "for all real and complex filters, all histories, all pairs of initial means, all multiples", "why_tests_cant": "It relates two runs of arbitrary length for all initial means.", "anchors": ["OpenKalman/filters/KalmanFilter.hpp:41-76", "OpenKalman/filters/KalmanFilter.hpp:86-102"]}
{"id": "C139", "title": "The Eigen Cholesky factor squares to the matrix or is refused", "statement": "For a Hermitian matrix stored in either triangle, cholesky_factor of the Eigen interface returns a triangle of the requested kind whose square is the matrix if the matrix is positive semidefinite, and throws otherwise.", "quantifier": "for all real and complex Hermitian matrices of any size, both storage triangles, both requested triangles, fixed and dynamic sizes, every Eigen meeting its documented contract", "why_tests_cant": "Tests use a few positive definite matrices; the pivoted fallback is only reached by singular ones, and pivoting depends on the entries.", "anchors": ["OpenKalman/linear-algebra/interfaces/eigen/eigen-library-interface.hpp:1207-1302"]}
{"id": "C140", "title": "Rank updates add the weighted square, and downdates throw exactly when the result is not a covariance", "statement": "The Hermitian rank update leaves A + alpha U U* in the significant triangle and does not touch the other; the triangular rank update leaves a factor of A + alpha U U*, and throws if and only if that has no factor.", "quantifier": "for all real and complex matrices of any size, any number of columns, all alpha, both triangles, every Eigen meeting its documented contract", "why_tests_cant": "The loop over columns goes through intermediate matrices whose definiteness has to be established for every matrix and number of columns.", "anchors": ["OpenKalman/linear-algebra/interfaces/eigen/eigen-library-interface.hpp:1305-1345"]}
{"id": "C141", "title": "The Eigen solvers return a solution, and honour uniqueness and exactness", "statement": "solve of the Eigen interface for Hermitian, triangular and general left sides returns a solution if there is one and otherwise a least-squares solution; with must_be_unique it throws if the columns are dependent; with must_be_exact it throws unless the result is a solution up to the stated tolerance.", "quantifier": "for all real and complex systems of any shape and number of right sides, all flags, every Eigen meeting its documented contract", "why_tests_cant": "Which branch is taken depends on definiteness and rank of the matrix.", "anchors": ["OpenKalman/linear-algebra/interfaces/eigen/eigen-library-interface.hpp:1348-1427"]}
{"id": "C142", "title": "LQ and QR decompositions of the Eigen interface are square triangles with the right square", "statement": "LQ_decomposition returns a square lower triangle L with L L* = A A* and QR_decomposition a square upper triangle R with R* R = A* A, both with a real diagonal, for matrices of every shape; one is the conjugate transpose of the other.", "quantifier": "for all real and complex matrices of any shape, every Eigen meeting its documented contract", "why_tests_cant": "It ranges over all shapes, wide, square and tall, and all matrices including those of deficient rank.", "anchors": ["OpenKalman/linear-algebra/interfaces/eigen/eigen-library-interface.hpp:1430-1511"]}
{"id": "C143", "title": "The square-root filter on Eigen never throws and agrees with the covariance filter", "statement": "Over every history of predictions and updates on valid distributions in Cholesky form, with the decompositions, solver and rank update of the Eigen interface, no exception is thrown, mean and covariance are those of the filter on covariances, and the factor stays a lower triangle with a real diagonal.", "quantifier": "for all real and complex histories of any length and dimensions, all priors, every Eigen meeting its documented contract", "why_tests_cant": "Whether a downdate throws depends on the definiteness of the posterior in each step of a history of arbitrary length.", "anchors": ["OpenKalman/filters/KalmanFilter.hpp:41-76", "OpenKalman/filters/KalmanFilter.hpp:86-102", "OpenKalman/transforms/details/LinearTransformBase.hpp:29-126", "OpenKalman/linear-algebra/interfaces/eigen/eigen-library-interface.hpp:1323-1345", "OpenKalman/linear-algebra/interfaces/eigen/eigen-library-interface.hpp:1430-1511"]}
{"id": "C144", "title": "A transformation evaluates the function it was made of and that function's derivatives", "statement": "Whatever happens to function objects and transformations in a program, a transformation made of a function yields the values of that function, and its Jacobian and Hessian those of the same function, for itself and for its copies.", "quantifier": "for all sequences of creating, assigning and destroying function objects, making transformations with default, given Jacobians and Hessians, copying them and evaluating them; all functions with or without derivatives", "why_tests_cant": "It is about lifetimes and later changes of objects in programs of any length; a dangling reference often still reads the old value in a test.", "anchors": ["OpenKalman/transformations/Transformation.hpp:46-212", "OpenKalman/transformations/Transformation.hpp:217-250", "OpenKalman/transformations/details/TransformationTraits.hpp:83-113"]}
{"id": "C145", "title": "A random perturbation is sampled exactly once per call", "statement": "Each evaluation of a transformation calls the function with the perturbations that are vectors as they are and with exactly one sample of each perturbation that is a distribution; value and derivatives belong to the same point.", "quantifier": "for all functions, numbers and kinds of perturbations, orders of evaluation of arguments, distributions and states of the generator", "why_tests_cant": "The order of evaluation is unspecified and the samples depend on the state of the generator.", "anchors": ["OpenKalman/transformations/Transformation.hpp:76-79", "OpenKalman/transformations/details/TransformationTraits.hpp:203-210", "OpenKalman/transformations/LinearTransformation.hpp:175-181", "OpenKalman/transformations/IdentityTransformation.hpp:53-56"]}
{"id": "C146", "title": "A comma initialiser writes the tableau that it spells", "statement": "x << a, b, c, ... accepts a list of blocks exactly if they form, in rows of full width, a matrix of the size of x, and gives x the values of that matrix; a mean gets them wrapped, a diagonal matrix or diagonal covariance takes them as its diagonal, a covariance or square root becomes the matrix spelt.", "quantifier": "for all sizes, all lists of blocks with elements, previous values, Hermitian and triangular matrices, all four stored forms, with and without finished(), and initialisers kept and continued", "why_tests_cant": "The layout is decided block by block for lists of any length and shape.", "anchors": ["OpenKalman/linear-algebra/interfaces/eigen/details/eigen-comma-initializers.hpp:25-211", "OpenKalman/linear-algebra/interfaces/eigen/details/EigenAdapterBase.hpp:239-300"]}
{"id": "C147", "title": "Concatenating and splitting typed matrices concatenates and splits the points in their columns", "statement": "Typed matrices placed one below the other, side by side or along the diagonal stand for the points that are placed so (with zero for the blocks off the diagonal), for all three classes; splitting yields the parts of the points, and undoes a concatenation exactly.", "quantifier": "for all row patterns of axes and angles, numbers of matrices and of columns, points, and classes Matrix, Mean and EuclideanMean", "why_tests_cant": "The cut positions depend on the class and pattern of each part, in lists of any length; the values are real.", "anchors": ["OpenKalman/linear-algebra/adapters/details/typed-matrix-overloads.hpp:269-283", "OpenKalman/linear-algebra/adapters/details/typed-matrix-overloads.hpp:307-330", "OpenKalman/linear-algebra/adapters/details/typed-matrix-overloads.hpp:339-354", "OpenKalman/linear-algebra/adapters/details/typed-matrix-overloads.hpp:359-378", "OpenKalman/linear-algebra/adapters/details/typed-matrix-overloads.hpp:402-440"]}
{"id": "C148", "title": "Functions of columns and coefficients keep means wrapped and act on the points", "statement": "After any sequence of apply_columnwise and apply_coefficientwise with functions that keep the number of rows, a Mean has canonical angles and the other classes the right number of rows; a function that acts on points acts in the same way on the columns; changing in place equals assigning what is returned.", "quantifier": "for all patterns, classes, sequences of changes, functions, numbers of columns and results of another class or pattern", "why_tests_cant": "An invariant over sequences of any length with arbitrary functions.", "anchors": ["OpenKalman/linear-algebra/adapters/details/typed-matrix-overloads.hpp:472-518", "OpenKalman/linear-algebra/adapters/details/typed-matrix-overloads.hpp:532-576", "OpenKalman/linear-algebra/adapters/details/typed-matrix-overloads.hpp:634-661", "OpenKalman/linear-algebra/adapters/details/typed-matrix-overloads.hpp:673-693"]}
{"id": "C149", "title": "solve of typed matrices yields a solution", "statement": "For a nonsingular A and a typed column b, the product of A with solve(A, b) is b, as a point of the pattern of b.", "quantifier": "for all sizes, nonsingular real matrices, patterns and columns", "why_tests_cant": "The set of matrices and right sides is infinite, and the failing cases depend on wrapping.", "anchors": ["OpenKalman/linear-algebra/adapters/details/typed-matrix-overloads.hpp:227-234"]}
{"id": "C150", "title": "The covariances that a transform of sample points yields are those of a joint distribution", "statement": "For cubature points and for unscented points with alpha² ≤ beta, alpha ≠ 0 and kappa > -dim, the covariance of the input, the cross-covariance and the covariance of the output are the blocks of a positive semidefinite matrix, although the weight of the centre may be negative; they are positive definite exactly if the points are mapped into no proper affine subspace.", "quantifier": "for all functions (any number of outputs), numbers and dimensions of input and noise terms, means, covariances, square roots of them and admissible parameters, real or complex", "why_tests_cant": "The functions are arbitrary and the dimensions unbounded; with a negative weight no single example shows that the matrix is semidefinite.", "anchors": ["OpenKalman/transforms/SamplePointsTransform.hpp:90-101", "OpenKalman/transforms/SamplePointsTransform.hpp:126-170", "OpenKalman/transforms/details/ScaledSigmaPointsBase.hpp:53-112", "OpenKalman/transforms/sample-points/CubaturePoints.hpp:51-107", "OpenKalman/transforms/sample-points/Unscented.hpp:142-203"]}
{"id": "C151", "title": "A filter on sample points keeps its covariance positive semidefinite", "statement": "Through every sequence of predictions and updates with arbitrary nonlinear functions, the covariance of the estimate stays positive semidefinite, also if measurement covariances are singular, as long as the solver solves the systems that have a solution.", "quantifier": "for all histories, functions, dimensions, noise terms, square roots, admissible parameters and solvers", "why_tests_cant": "An invariant over histories of any length with arbitrary functions.", "anchors": ["OpenKalman/filters/KalmanFilter.hpp:41-76", "OpenKalman/filters/KalmanFilter.hpp:86-102", "OpenKalman/transforms/SamplePointsTransform.hpp:126-170"]}
{"id": "C152", "title": "The square-root form of a filter on sample points yields what the self-adjoint form yields", "statement": "On distributions whose covariance is stored as a lower triangle, transform, prediction and update by sample points give a triangle with a real diagonal whose square is the covariance of the self-adjoint form, with the same mean and cross-covariance.", "quantifier": "for all functions, histories, dimensions, noise terms, admissible parameters and decompositions", "why_tests_cant": "The exception depends on the rank of the image of the points under an arbitrary function.", "anchors": ["OpenKalman/transforms/details/ScaledSigmaPointsBase.hpp:150-195", "OpenKalman/transforms/sample-points/CubaturePoints.hpp:174-188", "OpenKalman/filters/KalmanFilter.hpp:41-76", "OpenKalman/transforms/SamplePointsTransform.hpp:126-170"]}
{"id": "C153", "title": "Spans of spans show the elements that the same steps select from a list", "statement": "Every chain of first, last, subspan and conversions, with static or dynamic arguments, shows the elements that taking and dropping from the list gives; reading by number, the first and last elements, loops in both directions and views as bytes agree with the list. With checks, asking for elements that do not exist is a violation of a contract, and memory outside the span is never read.", "quantifier": "for all memories, spans, chains of any length, arguments of type size_t and element types", "why_tests_cant": "Chains have any length, and the wrong cases need arguments near 2^64.", "anchors": ["OpenKalman/basics/compatibility/std-lib-reference/span-tcbrindle/include/tcb/span.hpp:152-174", "OpenKalman/basics/compatibility/std-lib-reference/span-tcbrindle/include/tcb/span.hpp:319-323", "OpenKalman/basics/compatibility/std-lib-reference/span-tcbrindle/include/tcb/span.hpp:387-395", "OpenKalman/basics/compatibility/std-lib-reference/span-tcbrindle/include/tcb/span.hpp:402-454", "OpenKalman/basics/compatibility/std-lib-reference/span-tcbrindle/include/tcb/span.hpp:470-503", "OpenKalman/basics/compatibility/std-lib-reference/span-tcbrindle/include/tcb/span.hpp:571-587"]}
{"id": "C154", "title": "An mdarray is a value with an element at every index", "statement": "An mdarray made of extents, a mapping or a container that is large enough has an element at every index within its extents; writes, copies and moves between arrays change what they should and nothing else; conversion to another layout keeps the value; size() is the number of elements.", "quantifier": "for all extents, layouts, containers, sequences of writes, copies and moves between any number of arrays", "why_tests_cant": "Sequences of any length on arrays of any rank and layout.", "anchors": ["OpenKalman/basics/compatibility/std-lib-reference/mdspan-reference-implementation/include/experimental/__p1684_bits/mdarray.hpp:41-53", "OpenKalman/basics/compatibility/std-lib-reference/mdspan-reference-implementation/include/experimental/__p1684_bits/mdarray.hpp:103-134", "OpenKalman/basics/compatibility/std-lib-reference/mdspan-reference-implementation/include/experimental/__p1684_bits/mdarray.hpp:136-187", "OpenKalman/basics/compatibility/std-lib-reference/mdspan-reference-implementation/include/experimental/__p1684_bits/mdarray.hpp:191-203", "OpenKalman/basics/compatibility/std-lib-reference/mdspan-reference-implementation/include/experimental/__p1684_bits/mdarray.hpp:286-312", "OpenKalman/basics/compatibility/std-lib-reference/mdspan-reference-implementation/include/experimental/__p1684_bits/mdarray.hpp:343-367", "OpenKalman/basics/compatibility/std-lib-reference/mdspan-reference-implementation/include/experimental/__p1684_bits/mdarray.hpp:412-415"]}
{"id": "C155", "title": "In a system whose matrices do not change the reported covariance converges", "statement": "Called again and again with the same matrices and noise covariances, the filter takes its covariance through the Riccati recursion. If some constant gain makes errors die out, the covariance reported from a known start increases to the least solution of the Riccati equation. If moreover every component of the state is disturbed, there is exactly one solution, the covariance and the gain tend to it from every start, errors die out under that gain, and the condition is also necessary. The same holds for the square of the factor in square-root form.", "quantifier": "for all dimensions, real or complex matrices, noise terms, priors, measurements and numbers of calls", "why_tests_cant": "A limit over infinitely many calls, from every prior.", "anchors": ["OpenKalman/filters/KalmanFilter.hpp:41-76", "OpenKalman/filters/KalmanFilter.hpp:86-91", "OpenKalman/filters/KalmanFilter.hpp:152-158", "OpenKalman/filters/KalmanFilter.hpp:170-181", "OpenKalman/transforms/LinearTransform.hpp:57-61", "OpenKalman/transforms/details/LinearTransformBase.hpp:52-91"]}
{"id": "C156", "title": "The filter forgets where it started and finds the state", "statement": "Under the same conditions two filters that start with different means have means that approach each other whatever is measured, and if the state moves and is measured as the filter was told the mean approaches the state, whatever mean and covariance the filter started with.", "quantifier": "for all dimensions, matrices, noise terms, starting means and covariances and all sequences of measurements", "why_tests_cant": "A limit over infinitely many calls.", "anchors": ["OpenKalman/filters/KalmanFilter.hpp:41-76", "OpenKalman/filters/KalmanFilter.hpp:86-91", "OpenKalman/filters/KalmanFilter.hpp:152-158", "OpenKalman/filters/KalmanFilter.hpp:170-181"]}
{"id": "C157", "title": "Each stage of a series of sample-point transforms gets its own noise terms", "statement": "A call with any number of transformations, each with any number of noise terms, calls the function of each stage with the points of its input and of its own noise terms, in the order given.", "quantifier": "for all numbers of stages and of noise terms in each stage", "why_tests_cant": "Variadic in stages and in noise terms; what fails to compile is not tested.", "anchors": ["OpenKalman/transforms/SamplePointsTransform.hpp:68-87", "OpenKalman/transforms/SamplePointsTransform.hpp:113-135", "OpenKalman/transforms/SamplePointsTransform.hpp:182-214"]}
{"id": "C158", "title": "Copying a range into a container keeps its elements", "statement": "Where the standard library has no ranges::to, stdex::ranges::to accepts what the standard's function accepts, and the container that it returns holds the elements of the range in their order (each once for a set), to any depth of containers in containers; a closure called by name can be used again.", "quantifier": "for all kinds of containers, nestings, ranges and numbers of calls", "why_tests_cant": "Unbounded kinds of containers and depths; what is refused does not compile and cannot be tested.", "anchors": ["OpenKalman/basics/compatibility/views/to.hpp:55-133", "OpenKalman/basics/compatibility/views/to.hpp:146-180", "OpenKalman/basics/compatibility/views/to.hpp:208-262"]}
{"id": "C159", "title": "Sizes that a FixedSizeAdapter claims are true and are kept", "statement": "The adapter that gives an object of dynamic size a type with fixed sizes claims, through any expression of conversions, transposes, products, solutions, reductions and diagonals, exactly the sizes that follow from those of the arguments and from the underlying library, and all of them are true.", "quantifier": "for all ranks, sizes, partial claims, libraries and expressions", "why_tests_cant": "Claims are types: each combination is another program, and expressions nest without bound.", "anchors": ["OpenKalman/linear-algebra/adapters/interfaces/FixedSizeAdapter.hpp:40-66", "OpenKalman/linear-algebra/adapters/interfaces/FixedSizeAdapter.hpp:387-440", "OpenKalman/linear-algebra/adapters/interfaces/FixedSizeAdapter.hpp:494-523", "OpenKalman/linear-algebra/adapters/interfaces/FixedSizeAdapter.hpp:646-647", "OpenKalman/linear-algebra/adapters/interfaces/FixedSizeAdapter.hpp:742-781", "OpenKalman/linear-algebra/functions/internal/make_fixed_size_adapter.hpp:24-65", "OpenKalman/linear-algebra/functions/internal/make_fixed_square_adapter_like.hpp:32-61", "OpenKalman/linear-algebra/concepts/internal/less_fixed_than.hpp:24-70"]}
{"id": "C160", "title": "The Kalman filter does not depend on coordinates", "statement": "If every call of a filter is described in other affine coordinates (other units, axes and origins; possibly only of a part of the state that moves and is measured by itself, or with redundant components), means and covariances are those of the original filter in the other coordinates, after every history of calls and in both forms of covariances.", "quantifier": "for all histories, dimensions, linear transformations, splittings of noise into terms, measurements, priors and affine maps that intertwine the two descriptions (invertible for measurements)", "why_tests_cant": "The law relates two runs under every change of coordinates and every history.", "anchors": ["OpenKalman/filters/KalmanFilter.hpp:41-76", "OpenKalman/filters/KalmanFilter.hpp:86-102", "OpenKalman/filters/KalmanFilter.hpp:152-181", "OpenKalman/transforms/details/LinearTransformBase.hpp:58-89", "OpenKalman/transforms/details/LinearTransformBase.hpp:109-143"]}
{"id": "C161", "title": "The Kalman filter is the method of least squares over all stories", "statement": "Among all first states and disturbances that explain the measurements there is exactly one of least squares, and it ends in the mean that the filter reports; to end elsewhere costs more by the squared distance weighted by the inverse of the covariance that the filter reports.", "quantifier": "for all histories with non-degenerate measurement noise, all dimensions, and moves and priors of any rank", "why_tests_cant": "The minimum is over all trajectories, after histories of any length.", "anchors": ["OpenKalman/filters/KalmanFilter.hpp:41-76", "OpenKalman/filters/KalmanFilter.hpp:86-102", "OpenKalman/filters/KalmanFilter.hpp:152-181", "OpenKalman/transforms/details/LinearTransformBase.hpp:58-89", "OpenKalman/transforms/details/LinearTransformBase.hpp:109-143"]}
{"id": "C162", "title": "Filters on sample points do not depend on coordinates", "statement": "If every call of a filter on sample points is described in other affine coordinates of the states, of the noise terms and of the measurements, the filter reports the same means and covariances, in the other coordinates. With the square roots of the code this holds for coordinates that are positive multiples of the old ones plus combinations of earlier ones.", "quantifier": "for all histories of nonlinear predictions and updates, dimensions, admissible parameters, priors, noise terms and invertible coordinates", "why_tests_cant": "The law relates two runs for every nonlinear function and every change of coordinates.", "anchors": ["OpenKalman/transforms/sample-points/CubaturePoints.hpp:51-107", "OpenKalman/transforms/sample-points/CubaturePoints.hpp:122-126", "OpenKalman/transforms/sample-points/Unscented.hpp:142-203", "OpenKalman/transforms/sample-points/Unscented.hpp:215-219", "OpenKalman/transforms/SamplePointsTransform.hpp:126-170", "OpenKalman/filters/KalmanFilter.hpp:41-102"]}
{"id": "C163", "title": "Log-likelihoods of predicted measurements add up to the likelihood of all measurements", "statement": "In a linear system with jointly Gaussian initial state and noise terms, the sum over all updates of log_likelihood of the measurement, under the distribution of the measurement that the filter predicts just before the update, is the logarithm of the joint density of all measurements. It is the same whether covariances are kept as self-adjoint matrices or as Cholesky factors.", "quantifier": "for all histories of linear predictions and updates, dimensions, priors, noise terms (with positive definite measurement noise) and measured values", "why_tests_cant": "The law is about densities on spaces of any dimension, for every number of steps; a test compares two floating-point numbers for one history.", "anchors": ["OpenKalman/distributions/GaussianDistribution.hpp:347-353", "OpenKalman/filters/KalmanFilter.hpp:97-102", "OpenKalman/filters/KalmanFilter.hpp:152-158", "OpenKalman/transforms/details/LinearTransformBase.hpp:109-143"]}
{"id": "C164", "title": "The filter depends continuously on its arguments and has the right limits", "statement": "The mean and covariance after an update and after a prediction vary continuously with all the arguments. As the measurement noise grows without bound, the update leaves the prior unchanged; as it vanishes, the updated state agrees with the measurement exactly; as the covariance of the prior grows without bound, the update becomes the weighted least-squares solution of the measurement.", "quantifier": "for all dimensions, priors, noise covariances, measurement matrices and measured values (with positive definite covariances, and full rank where the limit exists only then)", "why_tests_cant": "Limits and continuity quantify over all neighbourhoods of the arguments.", "anchors": ["OpenKalman/filters/KalmanFilter.hpp:41-102", "OpenKalman/transforms/details/LinearTransformBase.hpp:109-143"]}
{"id": "C165", "title": "Objects made from lists of components have those components", "statement": "make_dense_object_from accepts a list exactly if the number of components determines the extents, and the object then has these extents and the components of the list in the order of the layout. make_matrix, make_mean, make_euclidean_mean, make_covariance and make_square_root_covariance give the matrix, the wrapped mean, the covariance and the square root that the list, read by rows, describes; lists of the wrong length never give an object; only the documented triangle of a list counts.", "quantifier": "for all extents (fixed or dynamic), layouts, lists of components of any length, and Hermitian or positive definite matrices listed", "why_tests_cant": "Tests list a few small matrices; the law is about all numbers of components against all extents, including lists that must be refused.", "anchors": ["OpenKalman/linear-algebra/interfaces/eigen/default-overloads.hpp:38-451", "OpenKalman/linear-algebra/functions/make_dense_object_from.obsolete.hpp:34-120", "OpenKalman/linear-algebra/functions/internal/may_hold_components.hpp:22-44", "OpenKalman/linear-algebra/interfaces/eigen/eigen-library-interface.hpp:388-426", "OpenKalman/linear-algebra/adapters/Covariance.hpp:172-189", "OpenKalman/linear-algebra/adapters/internal/forward-class-declarations.hpp:71-81"]}
{"id": "C166", "title": "What types say about the agreement of the shapes of several objects", "statement": "patterns_match_with<Ts...> holds exactly if objects of these types agree in their shapes, continued by ones, whatever their run-time extents; patterns_may_match_with<Ts...> holds exactly if there are run-time extents for which all the objects agree with each other.", "quantifier": "for all numbers of types, all ranks and all mixtures of fixed and dynamic extents", "why_tests_cant": "Tests try two or three types of equal rank; the law quantifies over any number of types and, for each, over all run-time extents.", "anchors": ["OpenKalman/linear-algebra/concepts/patterns_match_with.hpp:28-61", "OpenKalman/linear-algebra/concepts/patterns_may_match_with.hpp:28-61", "OpenKalman/patterns/concepts/collection_compares_with.hpp:28-117"]}
{"id": "C167", "title": "The residuals of the filter are white and have the predicted covariances", "statement": "In a linear system whose initial state and noise terms are square integrable and uncorrelated, the residuals z - y of the updates have mean zero, the covariances P_yy that the filter computes, and are uncorrelated with each other; their affine functions are those of the measurements. The expected sum of the squares of the residuals weighted by the inverses of P_yy is the number of scalars measured. If the system is jointly Gaussian, the residuals are independent and Gaussian. In Cholesky form the same residuals are computed.", "quantifier": "for all histories of linear predictions and updates, dimensions, priors and noise terms (with positive definite measurement noise), and all laws of them", "why_tests_cant": "Whiteness is a statement about expectations over all outcomes, for every pair of steps of every history; a test sees samples of one history.", "anchors": ["OpenKalman/filters/KalmanFilter.hpp:41-75", "OpenKalman/filters/KalmanFilter.hpp:96-102", "OpenKalman/filters/KalmanFilter.hpp:152-158", "OpenKalman/transforms/details/LinearTransformBase.hpp:109-143"]}
{"id": "C168", "title": "One filter for two systems that do not interact is two filters", "statement": "If the matrices and the noise terms of two systems are put side by side as diagonal blocks, and each measurement looks at one system or at both side by side, then the filter of the joint system, begun with the concatenation of the two distributions, reports the concatenation of what two separate filters report. No correlation between the systems appears, and a measurement of one leaves the other's distribution unchanged. The same holds in Cholesky form, for any factor of the joint covariance.", "quantifier": "for all histories in which the systems are predicted together and measured together or one at a time in any order, all dimensions, numbers of noise terms and of their matrices, with positive definite measurement noise", "why_tests_cant": "It relates runs of three filters over histories of any length with any interleaving of measurements; a test compares a few.", "anchors": ["OpenKalman/filters/KalmanFilter.hpp:41-75", "OpenKalman/filters/KalmanFilter.hpp:86-102", "OpenKalman/transforms/details/LinearTransformBase.hpp:109-143", "OpenKalman/distributions/GaussianDistribution.hpp:878-892"]}
{"id": "C169", "title": "Views of collections and the lives of the objects they are made of", "statement": "A view of a named container shows what the container holds for as long as the container lives; a view of a temporary container keeps that container; and a view made of another view means what that view meant at that time, whatever later becomes of that view: so what is read through any view at the end of a program is what is meant, and there is something to read unless a container which the view shows is gone.", "quantifier": "for all programs of any length that declare containers and views (of named, moved and temporary objects through any nesting of slice, replicate and concat), copy, change, assign to and destroy them", "why_tests_cant": "Tests read views at once, within one scope, where no object is yet gone; and reading an object that is gone often seems to work.", "anchors": ["OpenKalman/collections/views/all.hpp:39-54", "OpenKalman/collections/concepts/collection_view.hpp:29-34", "OpenKalman/collections/views/from_range.hpp:405-406", "OpenKalman/collections/views/from_tuple_like.hpp:345-346", "OpenKalman/collections/views/internal/movable_wrapper.hpp:31-187", "OpenKalman/collections/views/internal/tuple_wrapper.hpp:139-269", "OpenKalman/collections/views/slice.hpp:325-336", "OpenKalman/collections/views/replicate.hpp:393-432", "OpenKalman/collections/views/concat.hpp:180-198"]}
{"id": "C170", "title": "For small uncertainty the filters on sample points are the linearised filter", "statement": "If the state's mean is near a value and its covariance is about e² times a matrix, and all noise has standard deviations multiplied by e, then as e tends to zero the unscented and the cubature transform and filter tend to the linearised ones: the mean tends to that of the linearised filter, and the covariance and cross-covariance, divided by e², tend to its covariance and cross-covariance, whichever square roots of the covariances are taken and whatever the parameters of the unscented transform; the mean of a transform differs from the function's value at the mean by less than the order of e.", "quantifier": "for all continuously differentiable models, all dimensions, any number of noise terms, all admissible parameters and all square roots, and all histories of predictions and updates of any length whose covariances of predicted measurements (in the linearised filter) are positive definite", "why_tests_cant": "A limit over all models, parameters and histories; tests compare the two transforms on a few functions at one size of noise with a wide tolerance.", "anchors": ["OpenKalman/transforms/SamplePointsTransform.hpp:126-170", "OpenKalman/transforms/details/LinearTransformBase.hpp:76-143", "OpenKalman/transforms/LinearizedTransform.hpp:147-150", "OpenKalman/filters/KalmanFilter.hpp:41-102", "OpenKalman/transforms/sample-points/CubaturePoints.hpp:40-107", "OpenKalman/transforms/sample-points/Unscented.hpp:100-180"]}
{"id": "C171", "title": "Signed zeros, infinities and NaN in constant expressions", "statement": "Where the functions of the standard library cannot be called in constant expressions, the replacements for isnan, isinf, signbit, copysign, abs, sqrt, hypot, fmod and atan2 treat zeros of either sign, infinities and NaN as Annex F of the C standard says: they recognise NaN and infinities, find, copy and drop signs, give infinity for hypot with an infinite argument even beside NaN, NaN for the root of a negative number and for remainders without meaning, keep the sign of a zero under sqrt, and give remainders the sign of the dividend, and angles the sign of the first argument.", "quantifier": "for all floating-point numbers (finite, zero of either sign, infinite, NaN), integers as magnitudes of copysign, and any number of arguments of hypot", "why_tests_cant": "Each function takes another branch for each kind of argument; tests compare results with ==, which does not see the sign of a zero.", "anchors": ["OpenKalman/values/math/isnan.hpp:44", "OpenKalman/values/math/isinf.hpp:45", "OpenKalman/values/math/signbit.hpp:55", "OpenKalman/values/math/copysign.hpp:62-66", "OpenKalman/values/math/abs.hpp:55", "OpenKalman/values/math/sqrt.hpp:90-102", "OpenKalman/values/math/hypot.hpp:58-85", "OpenKalman/values/math/fmod.hpp:58-64", "OpenKalman/values/math/atan2.hpp:93-95", "OpenKalman/values/math/internal/math_utils.hpp:36-81"]}
{"id": "C172", "title": "Recursive least squares forgets what is old and keeps what is observed", "statement": "With a forgetting factor, the filter that predicts by the recursive-least-squares transform has a bounded covariance and error as long as its latest observations say something in every direction, whatever it started with; from exact observations of this kind the estimate converges to the true parameters; in directions that are never observed the estimate is kept while the variance is divided by the factor at each step; and the cross-covariance that the transform returns is that of a joint distribution.", "quantifier": "for all dimensions, forgetting factors, initial distributions with a positive definite covariance, and all finite or infinite sequences of observations", "why_tests_cant": "Limits and bounds over histories of any length, for all sequences of regressors.", "anchors": ["OpenKalman/transforms/RecursiveLeastSquaresTransform.hpp:37", "OpenKalman/transforms/RecursiveLeastSquaresTransform.hpp:60-64", "OpenKalman/transforms/RecursiveLeastSquaresTransform.hpp:86-93", "OpenKalman/filters/KalmanFilter.hpp:41-76", "OpenKalman/filters/KalmanFilter.hpp:152-158"]}
{"id": "C173", "title": "Monte Carlo estimates have no bias and converge", "statement": "If the draws of the input and of the noise terms are independent and alike, the mean, covariance and cross-covariance that the Monte Carlo transform reports have as expectations the mean, covariance and cross-covariance of the transformed variable, for every number of draws from two on; the variance of the reported mean is that of the variable divided by the number of draws; and as the number of draws grows all three converge to their expectations almost surely, in whatever order the samples are combined.", "quantifier": "for all transformations with measurable square-integrable outputs, all distributions of input and noise, all numbers of draws and all schedules of the parallel reduction", "why_tests_cant": "Statements about expectations and limits over infinitely many draws; tests only see one sequence of random numbers with a tolerance.", "anchors": ["OpenKalman/transforms/MonteCarloTransform.hpp:79-163", "OpenKalman/transforms/MonteCarloTransform.hpp:245-255", "OpenKalman/transforms/MonteCarloTransform.hpp:277-292"]}
{"id": "C174", "title": "Few Monte Carlo samples give a singular covariance", "statement": "If the transform draws no more samples than its output has components, the covariance it returns is singular, whatever the samples are and however the parallel reduction combines them, and no gain that satisfies the equation of the update is the only one. With one sample more this need not be so, for any number of components.", "quantifier": "for all dimensions, all samples (at least two), real or complex, and all orders and groupings of the reduction", "why_tests_cant": "All samples and dimensions; tests draw many samples of outputs with two components.", "anchors": ["OpenKalman/transforms/MonteCarloTransform.hpp:120-163", "OpenKalman/transforms/MonteCarloTransform.hpp:252", "OpenKalman/transforms/MonteCarloTransform.hpp:277-292", "OpenKalman/filters/KalmanFilter.hpp:54-59"]}
