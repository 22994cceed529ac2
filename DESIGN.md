# Formal model of OpenKalman: design

Subject: `ogdenc/OpenKalman`, source text in `/repo` (C++ templates). The code is read as text; it is
never built or run here. Everything below is about the Lean 4 model in `/verif/lean`.

## Trusted base

* Lean 4.33.0's kernel, and Mathlib as installed.
* Axioms: only `propext`, `Classical.choice`, `Quot.sound`. No axioms of our own, no `sorry`, no
  `native_decide`, no `bv_decide`, no `implemented_by`, no `unsafe`.
* The faithfulness of the hand translation from C++ to the `Verif/Model` definitions. Every model
  definition cites the file and lines it translates. The citations are the audit trail.
* The idealisations listed next.

## Idealisations

* **Floating point is replaced by exact arithmetic.** Scalars are `ℝ`, `ℂ`, or an arbitrary field /
  star-ordered field. Rounding, overflow, NaN payloads and signed zero are out of scope, except where the
  code branches on them explicitly (then an explicit outcome is modelled: e.g. `Ext` results in `pow`,
  division by zero in `MonteCarlo`).
* `std::cos, sin, atan2, acos, sqrt, fmod` are the exact mathematical functions (`Real.cos`, `Complex.arg`,
  `Real.arccos`, `Real.sqrt`, truncated remainder).
* Static (compile-time) and dynamic (run-time) sizes are the same number in the model; where the two paths are
  separate code (recursion vs. loop) both are modelled and proved equal or shown to differ.
* Overload resolution / concept checks are modelled as explicit tags (`inductive` types) with the branch order
  of the `if constexpr` chain.
* Third-party linear algebra (Eigen) is trusted to satisfy its contract: e.g. `solve` in the general branch returns
  a solution, `LQ_decomposition` returns lower-triangular `L` with `L Lᴴ = A Aᴴ`. Such contracts are explicit
  hypotheses or structure fields in the model, never axioms.

## Layout

* `Verif/Model/*.lean`: the code, function by function, with citations.
* `Verif/Spec/*.lean`: independent specifications (no import of the model).
* `Verif/Proof/*.lean`: helper lemmas.
* `Verif/Theorems/*.lean`: the property theorems, each followed by an `example` exercising its hypotheses.

## Undefined behaviour and failure

Out-of-range reads, division by zero, thrown exceptions are distinct outcomes (`none`, `Except`), never a default
value. Where the code relies on a precondition without checking it, the theorem states the precondition and a
companion theorem shows what happens outside.

## Violations

When the code does not satisfy the property, the model keeps the code's behaviour; a theorem proves the negation
with a concrete witness, and a `_partial` theorem proves the property on the part of the domain where it
does hold. Each is listed in the "Disagreements" section.

The repository is in the middle of a refactoring. The filters, transforms, distributions and covariance classes
call functions and traits under names that no longer exist (`constant_matrix`, `triangle_type_of_v<A, B>` with
several arguments, `vector_space_descriptor_of_t`, `MatrixTraits`, `make_identity_matrix_like`, `difference_type`,
`patterns::set_wrapped_component`), and their includes in `linear-algebra.hpp` are commented out. The model reads such a
call as the function of the same meaning under its new name. A place that cannot compile for another reason is an
explicit failing outcome in the model where a theorem depends on it, and is listed below otherwise.

## Per property plan

`Model` is the module under `Verif/Model`; the theorems are in the module of the same name under `Verif/Theorems`
unless another one is named.

| id | modelled | simplified or left out | method |
|----|----------|------------------------|--------|
| C01 | `Descriptors`: `wrap_phi_mod` over ℝ | rounding | floor algebra; uniqueness of the representative |
| C02 | `Descriptors`: `to_stat_space`, `from_stat_space` of angles, both branches | rounding | `Complex.arg` of `r e^{iθ}`; negation at π for [-π, π) |
| C03 | as C02 | | injectivity of `e^{iθ}` modulo 2π |
| C04 | `Descriptors`: `Inclination` | | reflection algebra, arg in the upper half plane |
| C05 | `Descriptors`: `Distance` | | absolute value; negation for decoding |
| C06 | `Descriptors`: `Polar`, both orders | | from C01 and C02 with a half-period shift |
| C07 | `Descriptors`: `Spherical::wrap`, six orders | | case split on flips; trigonometric shifts |
| C08 | `Descriptors`: `Spherical` round trip | | arccos and copysign algebra |
| C09 | `Pattern`: list-level walks, both `#if` branches | element access is a function, not a range object | induction over the pattern |
| C10 | `Pattern`: sums and conjunctions in all presentations | | induction |
| C11 | `Pattern`: `compare_three_way_impl` and `_fixed` | index pairs as remaining lists | induction against the prefix order of unit axes |
| C12 | `Pattern`: the dispatcher, unbounded ranges | both ranges unbounded is left out | case split; four negations |
| C13 | `Descriptors`: hash formulas | `std::hash` of strings as given numbers | explicit collisions, injectivity by kind |
| C14 | `PatternColl`: compare with padding, `strip_1D_tail` | | induction |
| C15 | `PatternColl`: transpose view, all access paths | | index algebra; negation for `operator[]` |
| C16 | `PatternColl`: `diagonal_of`, `to_diagonal` | | case split on the comparison |
| C17 | `PatternColl`: folds | | induction; negation for the uniform component |
| C18 | `Collections`: nested view expressions | iterator categories | structural induction against list operations |
| C19 | `Collections`: both implementations | | induction |
| C20 | `Collections`: `compare_indices` | | induction |
| C21 | `Layout`: packed layout formulas | | triangular-number arithmetic |
| C22 | `Layout`: triangle partition | | case split; negation for non-square |
| C23 | `Layout`: accessors with adapters | | composition of C22 with accessors |
| C24 | `Layout`: `offset` | | negation with the exact set on which it holds |
| C25 | `Layout`: diagonal layouts | | index algebra; negations for stride and span |
| C26 | `Layout`: transposed layout | | index algebra |
| C27 | `ValuesReal`: `pow_integral`, `integral_exp`, real exponents | rounding | well-founded induction on the exponent |
| C28 | `ValuesReal`: range reduction of log and exp | rounding | well-founded loops over ℝ |
| C29 | `ValuesReal`: `hypot` | scaling against overflow is exact here | algebra |
| C30 | `ValuesComplex`: square root | signed zero | algebra over ℂ |
| C31 | `ValuesReal`: `fmod` fallback | | truncation algebra |
| C32 | `ValuesReal`, `ValuesComplex`: `atan2` | signed zero | quadrant case split; negation for complex |
| C33 | `ValuesComplex`: `asin`, `acos` | branch cuts with signed zero | log and exp algebra |
| C34–C35 | `LinAlg`: `trace`, `determinant` over tagged matrices | library determinant exact | soundness without side condition; induction on shape |
| C36–C39 | `LinAlg`, `LinAlgOps`, `LinAlgTensor`: `contract`, `sum`, `transpose`, `conjugate`, `reduce`, `average_reduce` | library kernels (dense product, elementwise) exact | matrix algebra, induction on lists |
| C40 | `Slices`, `ConcatStruct`: `tile`, `concatenate`, `split` | | induction over blocks |
| C41 | `Slices`: `get_slice`, `set_slice`, chips, `chipwise_operation` | | index algebra |
| C42 | `Solve` | library solver as a contract | matrix algebra; least squares by orthogonality |
| C43 | `Factor`: Cholesky, LQ, QR, rank updates | library decompositions as contracts | matrix algebra |
| C44–C46 | `CovSync`, `CovView`, `CovDet`: synchronisation state machine | | simulation invariant by induction over histories; negations |
| C47 | `CovArith` | | matrix algebra by stored form; negations |
| C48–C52 | `Kalman` (`Theorems.Kalman`, `Theorems.KalmanBayes`) | solver as a contract; angular residuals in C79 | matrix algebra, positive semidefinite order, induction over histories, densities |
| C53–C55 | `Kalman` (`Theorems.KalmanTransforms`) | as above | matrix algebra, induction over noise terms |
| C56–C58 | `SigmaPoints` | Euclidean outputs; angular ones in C79 | sums over point sets |
| C59 | `MonteCarlo` | Euclidean outputs | structural induction on reduction trees |
| C60, C61, C68 | `Gaussian` | generator: its output is taken to be standard normal | Mathlib's Gaussian measures, characteristic functions, densities |
| C62 | `FiniteDiff` | step sizes as given | state monad with exceptions; Taylor expansion for the limits |
| C63 | `CovBlocks` | | block matrices, induction over operands |
| C64 | `StoredForm` | Euclidean patterns; library factorisations by their specification | moments as the only abstraction; induction over runs; counterexamples for upper factors |
| C65–C67 | `ValuesReal`, `ValuesComplex`: iterations, series, periodic reduction, complex functions | stopping rules of floating point | limits, power series, congruences |
| C69–C71 | `EigenTraits`: tables of functor traits, the traits of each expression class, expression trees | packet access, storage order, wrapper types; `get_constant_diagonal` belongs to an interface the core has replaced, what it returns is read as a report | soundness of each node by cases, induction over expressions; negations with witnesses |
| C72–C75 | `Shape`: index count, extents, order, vector and emptiness queries, `access`, `patterns_match`, `to_extents` | data beyond the extents; `constexpr` | what a type knows is a list with gaps, and guarantees quantify over its instances; induction over indices; negations |
| C76 | `PatternDims` | patterns reduced to their dimensions | induction over elements, exactness of the concepts by construction of a collection; negations |
| C77 | `StatSpace` | components real; pattern collections of compile-time size | induction over the levels of the filling loop; offsets as sums of products; C09 for the vectors; negations |
| C78 | `Angular` | one column; axes and angles; `set_wrapped_component` and the base class of `Mean` are not in the repository, so component access is left out | a mean as a vector of points; induction over the operations; negations |
| C79 | `Angular` | one column per point; the transform's function is any function to columns | directional mean as minimiser of the weighted spread; congruence modulo whole turns; negations |
| C80 | `Adapters` | an object is what `object_traits` says with its elements; elements over ℝ or ℂ, no rounding; patterns are dimensions; that the mdspans have these elements is C21–C26 | induction over towers of adapters: what the traits say is true of the tensor; negations |
| C81 | `Adapters` | as C80; `pattern_collection_for` compares with the pattern of the object, not the extents of its mdspan, which are the same for the adapters here | case analysis on top of C80 and C76; negations |
| C82 | `InPlace`: `set_triangle` with its loops, recursion through adapters and Eigen hooks | partial: Hermitian adapters that keep the other triangle, dense objects without a hook (code) | induction on the tower; loops as functions |
| C83 | `InPlace`: `contract_in_place` and its Eigen hook | partial: application on the left without a dense or diagonal hook, non-square operands (code) | sums over a ring |
| C84 | `InPlace`: `copy_from` with `access` of C73 | partial: extents known at run time, destinations that end in a fixed 1, aliasing (code) | invariant of the nested loops |
| C85 | `EigenAccess`: `get_coeff`, `extract_indices`, `get_component`, `set_component` | partial: unit and strict views, row vectors as diagonals (code) | cases |
| C86 | `EigenAccess`: `diagonal_of`, `to_diagonal` of the Eigen interface | partial: unit and strict views (code) | cases |
| C87 | `EigenAccess`: `broadcast` and `Eigen::Replicate` | partial: a fixed factor 0 is not refused (code) | induction on the list of factors |
| C88 | `NAry`: `find_max_dim(s)` and `n_ary_operation` without patterns over lists of fixed and run-time dimensions | partial: fixed extents and zero extents (code) | induction over the arguments |
| C89 | `NAry`: `check_n_ary_dims`, `n_ary_operation_impl`, the nested loops | partial: operations with indices in two branches (code) | footprints of nested loops by induction over the rank |
| C90 | `NAry`: `nullary_iterate`, `nullary_set_components`, filling in the order of the layout | partial: one operation for each element (code) | induction over the selected indices with the positions written so far |
| C91 | `NAry`: `unary_operation_in_place` on an object given by reading and writing | partial: objects with shared elements (code) | induction over the positions |
| C92 | `Scalars`: `near`, `operation`, `real`, `imag` over typed rational numbers with the promotions and conversions of the language | partial: unsigned, mixed-sign and overflowing differences, negative errors (code) | cases on types, arithmetic modulo powers of two |
| C93 | `Scalars`: `compare_three_way_near` and `fixed_value_compares_with` | partial: numbers that the type of the value cannot represent (code) | cases |
| C94 | `Scalars`: `cast_to`, `make_complex_number`, `update_real_part`, `real_type_of` | partial: complex types with integral parts (code) | cases |
| C95 | `PatTypes`: `compares_with` on types of descriptors, tuples, arrays and sized ranges; hash codes equal iff descriptors are; unsized ranges left out | partial: `Any` holding a Euclidean descriptor, a run-time dimension next to another in the second pattern, elements of dimension zero beside a range, strict comparisons of types that leave something to run time (all code) | induction along `compares_with_iter` with banks of pending dimensions as invariant |
| C96 | `PatTypes`: `common_descriptor_type`, `uniform_pattern_type`, `uniform_pattern` guaranteed and permitted | partial: guaranteed part proved; two types of one descriptor, elements of dimension zero, empty ranges, first element of several dimensions (all code) | induction over the elements |
| C97 | `PatTypes`: `most_fixed_pattern` | choice proved; acceptance partial as C95; pairs of later patterns are not compared (code) | induction over the list |
| C98 | `Compat`: `cmp_*`, `partial_ordering`, `compare_three_way`, `lexicographical_compare_three_way`; integers with promotion and usual conversions | proved; orderings made from arbitrary numbers shown inconsistent | conversions preserve values where the code uses them; loop by induction with a unique characterisation |
| C99 | `Compat`: `ranges::advance` and `next` on positions | partial: with sized sentinels the test is inverted (code), right exactly if the steps equal the distance | induction on the loops, case analysis |
| C100 | `Compat`: element access and size of all compositions of the views, `view_interface`; the underlying ranges are lists; lifetimes left out | proved for ranges that do not change; the tables of `concat_view` are shown to go stale (code) | induction over compositions; tables of a concatenation by induction over its parts |
| C101 | `Compat`: `iota_view` over integer types with overflow as a distinct outcome | partial: size from the least number of a type, distances beyond the signed type (code) | case analysis over the types, induction for the walk |
| C102 | `Compat`: assignments of `movable_box` in both language versions, by traits of the type | partial: C++17 copy of non-assignable types does nothing, throwing ones do not compile; moving (code) | case analysis over traits |
| C103 | `Gets`: `range_extent` and `get_size` of tuples, arrays, ranges and all views listed there; sizes do not overflow | partial: subranges (always 2) and arrays of unknown bound (0) are wrong (code) | induction over towers of views |
| C104 | `Gets`: `get_element` with constant and run-time indices, `apply`, elements of mdspan extents; ranges are random-access | partial: subranges give iterators for constant indices (code) | C103 and case analysis; induction for `apply` |
| C105 | `Gets`: `tuple_flatten` of standard tuples | proved | structural induction |
| C106 | `Contraction`: `get_constant` of `TensorContractionOp`, with contraction as a sum over positions; numbers exact | partial: the factor is made of extents of the result instead of the operand, and diagonal matrices need not be square (code) | induction over pairs and positions |
| C107 | `Contraction`: `is_hermitian` of `TensorContractionOp` | partial: constants on the diagonal that are not real (code) | sums with one non-zero term |
| C108 | `Evaluators`: flags, `coeff` with one and two indices of towers of Eigen evaluators; no packets | partial: complex Hermitian adapters around matrices, one-by-one complex Hermitian adapters with one index, diagonal adapters around adapters (code) | induction over towers |
| C109 | `Evaluators`: `coeffRef` as the place it refers to; diagonal adapters directly around a column | proved | induction over towers: places and injectivity |
| C110 | `Mdspan`: `extents` of the bundled multidimensional spans: static and open extents, their compile-time scans, constructors, conversion and comparison | partial | induction over the list of extents; comparison of different ranks refuted by witnesses |
| C111 | `Mdspan`: `layout_left`, `layout_right`, size and emptiness of spans, with arithmetic modulo the range of the index type | proved | closed form by induction over ranks; bijection with the numbers below the product |
| C112 | `Mdspan`: `layout_stride` and the conversions between layouts, with and without assertions | partial | needed size by the largest index; nested strides are unique by induction; counting for exhaustiveness; witnesses for unchecked strides |
| C113 | `Mdspan`: `submdspan_extents` and `submdspan_mapping` for the three layouts and all kinds of slices | proved | linear forms: the weights of the part are those of the kept ranks times steps, induction over ranks |
| C114 | `MonteAngle`: the reduction of C59 with the arithmetic of `Mean` (C78) for the inputs | partial | Outputs exact by comparison with C59, induction over the tree; the cross-covariance if the positive and the negative angles each add up to a canonical number; otherwise wrong (witness), and dependent on the order (witness) |
| C115 | `TypedConv`: constructors and assignments among the typed matrices, over the encodings of C78 | partial | A relation between objects and points kept by every conversion, induction over chains; assignment where the pattern has an angle; negation for Euclidean patterns |
| C116 | `EigenShapes`: each trait of `Reshaped` as a function of four extents at compile time; the nested reports are hypotheses; the floating-point test for perfect squares is any test that perfect squares pass | partial | Index arithmetic and cases; squares if the number of rows is known, Hermitian if the nested matrix is square; negations with witnesses |
| C117 | `EigenShapes`: `DiagonalWrapper`, `DiagonalMatrix`, `count_indices` of the bases, `VectorBlock`, `VectorWiseOp` | partial | Cases; squareness sound for wrappers for every N, complete for N ≥ 3; negations with witnesses |
| C118 | `Blas1`: `dot`, `dotc`, `vector_abs_sum`, `vector_idx_abs_max`, `add`, `copy`, `swap_elements`, `scale` of the bundled linear algebra library, as loops over arrays | proved | Loop invariants; a loop of additions is a sum |
| C119 | `Blas1`: `vector_sum_of_squares`, `vector_two_norm`, `matrix_frob_norm`, `matrix_inf_norm`, `matrix_one_norm` | partial | Invariant scale² · sum; the Frobenius norm is right just if the magnitudes do not decrease (both directions proved), otherwise too large (witness) |
| C120 | `Blas2`: `matrix_vector_product`, `symmetric_`, `hermitian_`, `triangular_matrix_vector_product`, updating and in-place forms, as loops over arrays | proved | Loops that add are sums; splitting a sum at the diagonal; invariant for the in-place loop |
| C121 | `Blas2`: `triangular_matrix_vector_solve` | proved | Invariant of forward and backward substitution; uniqueness by induction on rows |
| C122 | `Blas3`: `matrix_product` and the left, right and in-place symmetric, Hermitian and triangular products | proved | Loops that set every component once; right products by transposition; invariants for the in-place ones |
| C123 | `Blas3`: `triangular_matrix_matrix_left_solve`, `_right_solve` | proved | Column by column (row by row) reduction to C121 |
| C124 | `RankUpdate`: all general, symmetric and Hermitian rank-1, rank-2, rank-k and rank-2k updates, with and without factor, with and without `LINALG_FIX_RANK_UPDATES` | proved | A loop over a triangle treats each component once; symmetry of the update; a complex factor for a Hermitian update gives a complex diagonal (witness) |
| C125 | `Givens`: real `setup_givens_rotation` with its scaling loops, `apply_givens_rotation` | proved | Termination of the loops from σⁿ → 0; scaling cancels; loop invariant |
| C126 | `Givens`: complex `setup_givens_rotation` with the scaling, the branch for tiny `f` and the loop that scales back, `apply_givens_rotation` | partial | Cosine and sine right for all inputs; `r` right just down to safmn2² and proved wrong below; witness 2^-1000 for `double` |
| C127 | `LinalgViews`: `transpose_extents`, `layout_transpose`, the specialisations of `transposed_layout`, `transposed` | partial | Cases of static and dynamic extents; offsets computed in the index type with wraparound; a second transposition of another layout proved ill-formed |
| C128 | `LinalgViews`: `conjugated_accessor`, `scaled_accessor`, `conjugated`, `scaled`, `conjugate_transposed` | proved | Cases of the accessor, involution of the conjugate |
| C129 | `Randomize`: `RandomizeOp`, `randomize`, the branches of `n_ary_operation` for operations with an effect | partial | The loops are shown to run a list of (distribution, position) pairs, which lists each position once; induction over the list |
| C130 | `Randomize`: the same with a stream of items as the state of the generator | partial | The item used at each position is counted; positions use different items; `iIndepFun.precomp` and `comp` |
| C131 | `LinSys` over `Kalman`: the model's `predict`/`update` run through a system of random vectors on a probability space (`Spec/LinSys.lean`) | proved | invariant by induction over the steps: the error is orthogonal to the measurements; projection argument for optimality |
| C132 | the same, with jointly Gaussian sources | proved | affine functions of Gaussian variables are Gaussian, uncorrelated ones are independent, conditional expectation of an independent error |
| C133 | `Moments` over `SigmaPoints`: the modelled points, weights and transform, and random vectors on a probability space (`Spec/Moments.lean`) | proved | the third weighted moments of the points vanish by symmetry; integral and weighted sum are linear and agree on products of at most three deviations, which span the polynomials; Gaussian moments from the moment generating function |
| C134 | `SecondOrder` over `Kalman` and `FiniteDiff`: value, Jacobians, Hessians, first-order terms and correction put together | partial (false for products of input and noise) | finite differences are exact on quadratics (C62), the joint Hessian is block diagonal, the correction is exact for normal moments (C55) |
| C135 | `Moments` over `SigmaPoints` | partial (scalar input without noise; false for two dimensions) | fourth moments of the points; closed formula for the error, `(β + α² κ - 2) v²` times the second-order coefficients |
| C136 | `Robust` over `Kalman` and `LinSys`: the modelled filter, given factors that need not be those of the noises (`System.Covered` in `Spec/LinSys.lean`) | proved | invariant through all steps: the error is unbiased, uncorrelated with later noises and its covariance is bounded; the update in Joseph form; Chebyshev's inequality |
| C137 | `Robust` over `Kalman` | proved | induction over the two histories; the gain of the filter with more noise is a possible gain of the other, whose own is optimal (C48) |
| C138 | `Robust` over `Kalman` | proved | induction: each call maps the mean affinely and the covariance by the same matrix, and adds something positive semidefinite |
| C139 | `EigenHooks`: `cholesky_factor` of a self-adjoint view, with `llt()`, `ldlt()` and their status as contracts (`EigenLib`, met by `someLib`) | partial: exchanges of rows and columns are dropped, negative semidefinite matrices and zero diagonals are not refused, the wrong triangle is decomposed, dynamic sizes (code) | case analysis over the two decompositions; square of a scaled unit triangle |
| C140 | `EigenHooks`: `rank_update_hermitian`, `rank_update_triangular` with the loop over columns; one column as a contract | partial: singular results are refused (code) | induction over the columns: all intermediate matrices lie between two positive definite ones |
| C141 | `EigenHooks`: `solve` for self-adjoint views, triangles and general matrices; kernels as contracts | partial: indefinite matrices are refused, flags ignored for Hermitian and triangular matrices, QR without pivoting (code) | matrix algebra; orthogonality of residuals; rank and injectivity |
| C142 | `EigenHooks`: `QR_decomp_impl`, `LQ_decomposition`, `QR_decomposition`; Householder QR as a contract | proved | padding with zero rows does not change the square |
| C143 | `EigenHooks` over `Kalman`: transform, update and histories on top of the functions of C139–C142, in `Except` | partial: a singular posterior throws (code) | induction over histories; the posterior is positive definite by its Joseph form, so that every downdate succeeds |
| C144 | `Transformation`: `Transformation` of orders 0 to 2, `default_Jacobian`, `default_Hessian`, `get_Taylor_term`, copies, over a store of function objects | partial: derivatives refer to the argument of the constructor, copies are refused (code) | invariant by induction over programs |
| C145 | `Transformation`: `operator()`, `jacobian`, `hessian` with `get_perturbation`; arguments evaluated in any order; `LinearTransformation`, `IdentityTransformation` | partial: value and derivative use different samples, identity does not sample (code) | induction over the order of evaluation |
| C146 | `Comma`: the three comma initialisers on Eigen's `CommaInitializer` (as in Eigen 3.4), `finished()`, kept initialisers | partial: `finished()` of a mean, kept initialisers, complex diagonal covariances (code) | induction over rows and blocks in both directions; matrix algebra |
| C147 | `TypedOps`: `concatenate_vertical/horizontal/diagonal`, `split_vertical/horizontal` of lists of typed matrices | partial: Euclidean-transformed matrices mixed with others, or along the diagonal (code) | induction over the list of parts; round trip |
| C148 | `TypedOps`: `apply_columnwise`, `apply_coefficientwise`, in place and returning | proved | invariant by induction over changes; relation to points |
| C149 | `TypedOps`: `solve` for one column | partial: wrapped result for a mean of angles (code) | matrix algebra |
| C150 | `SigmaFilter`: points, weights, `transform` with cross-covariance for any function | proved | Gram matrix of deviations with weights; Cauchy–Schwarz for the negative weight; affine independence |
| C151 | `SigmaFilter`: `predict` and `update` of the filter for any function, histories of calls | proved | invariant by induction; Schur complement with a generalised inverse |
| C152 | `SigmaFilter`: the same in Cholesky form, with `lq` and rank updates as contracts (`EigenLib`) | partial: negative weight and dependent outputs (code) | Refinement of the self-adjoint form; positive definite noise that is added keeps the points spread, by induction over histories |
| C153 | `Containers`: `tcb::span` with checks on or off, as a position in a list with arithmetic modulo 2^64 | partial: conversion to a static extent, and overflow in `subspan`, are not checked (code) | Refinement of steps on lists, induction over chains |
| C154 | `Containers`: `mdarray` on the mappings of `Mdspan`, with vectors and arrays as containers | partial: `size()` with gaps, arrays of a fixed size, moved-from arrays, conversion from strides without assertions (code) | Refinement of values, induction over statements; C111 and C112 for the mappings |
| C155 | `Steady` over `Kalman`: `predict` and then `update`, called in turn any number of times (`operator()` means this but cannot be instantiated) | proved | optimality of the gain gives monotonicity and bounds; bounded monotone sequences of matrices converge by their traces; contraction by the covariance added in each step |
| C156 | `Steady` over `Kalman` | proved | products of the matrices of the steps are bounded by a geometric sequence times the covariance |
| C157 | `Stages`: `transform`, `construct_ps`, `transform_impl` on objects that are tuples or not | partial: the groups of points are concatenated, so that every call is refused (code) | Induction over stages; refusal by counting elements |
| C158 | `ToContainer`: `to`, `toable`, `Partial` over descriptions of containers by the members and constructors they have; nested containers | partial: the branch for a pair of iterators is unreachable for containers, so sets and forward lists are refused (code) | Induction over the type and over the elements |
| C159 | `FixedSize`: `make_fixed_size_adapter`, `make_fixed_square_adapter_like`, the interface of `FixedSizeAdapter`; a pattern is its dimension, the underlying library is arbitrary | partial: existing adapters are taken off, the descriptor of a square adapter is dropped, `broadcast` claims sizes of one (code) | Induction over indices and expressions |
| C160 | `Frames`: histories of `predict` and `update` (model of `Kalman`), for states in affine coordinates that need not be invertible | proved | Induction over pairs of histories that describe the same |
| C161 | `Frames`: the same histories; explanations are first states and disturbances, their cost a sum of squares | proved | Induction over histories: a bijection of explanations with vectors whose squares add up to the cost |
| C162 | `SigmaFrames`: histories of the filter on sample points (model of `SigmaFilter`), with any square roots and with lower Cholesky factors | partial: the order of components matters | Induction over pairs of histories; uniqueness of Cholesky factors; a witness in two dimensions |
| C163 | `Evidence`: the sum of `log_likelihood` along the calls of a filter, in self-adjoint and in Cholesky form | proved | Measurements as one affine function of the jointly Gaussian vector; densities by the chain rule, by induction over the calls |
| C164 | `Limits`: families of calls of the filter (model of `Kalman`) | proved | Continuity of the inverse at invertible matrices; limits through the rewritten gain |
| C165 | `Makers`: `make_dense_object_from`, `may_hold_components`, `fill_components` for Eigen, `make_matrix`, `make_mean`, `make_euclidean_mean`, `make_covariance`, `make_square_root_covariance`; conversion of numbers and tensors are not modelled | partial | Arithmetic of lengths and extents; the comma initializer of C146 on single numbers; Cholesky contract of the library |
| C166 | `TypeMatch`: `patterns_match_with`, `patterns_may_match_with`, `collection_compares_with` on Euclidean patterns; collections whose size is not fixed are left out (see C14) | partial: conflicts between later types (code) | Induction over extents; shapes filled in to agree or to differ |
| C167 | `Innovation`: the residuals and predicted covariances of measurements along the calls of a filter, in self-adjoint and in Cholesky form | proved | Invariant of C131 carried through predictions of measurements; uncorrelated jointly Gaussian vectors are independent |
| C168 | `Joint`: the filter of C49 on block-diagonal systems, `concatenate` of two distributions | proved | Algebra of diagonal blocks, induction over three histories at once (a relation `Beside`); Cholesky form by C50 |
| C169 | `Lifetimes`: what `all`, `slice`, `replicate` and `concat` hold of their operands, and programs of declarations, copies, assignments and destructions; writing through views and iterators are left out | partial: views of named views (code) | Simulation between what views hold and what they mean, invariant over programs |
| C170 | `SmallNoise`: the linearised transform with Jacobians (derivatives of the model's function at the means), beside the sample-point transform and filter of `SigmaFilter`; exact arithmetic | proved | First-order expansion of the sample points' images with little-o remainders, continuity of the gain, induction over histories |
| C171 | `Signs`, `SignsAtan`: the constant-evaluated branches of `isnan`, `isinf`, `signbit`, `copysign`, `abs`, `sqrt`, `hypot`, `fmod`, `atan2` for IEEE numbers whose finite magnitudes are exact reals | partial: signs of zeros (code) | cases, induction over the arguments of `hypot`, truncation algebra |
| C172 | `Forgetting`: `RecursiveLeastSquaresTransform` as the predict step (C54) and as the measurement transform of `KalmanFilter::update`; scalars are exact | partial: cross-covariance (code) | one-step recursion of the information matrix, order of Hermitian matrices, completion of the square, geometric sums, Schur complement |
| C173 | `MonteLimit`: the reduction and the result of `MonteCarloTransform` (C59) for random samples; the draws are assumed independent and alike, patterns are Euclidean, scalars exact and real | proved | C59, sums of products of independent variables, strong law of large numbers |
| C174 | `MonteRank` over `MonteCarlo` (C59): what the transform returns for few samples; scalars are exact | proved | some direction is orthogonal to all deviations by counting dimensions; covariance and cross-covariance vanish on it |

## Disagreements

Places where the code does not do what the property asks. Theorem names in parentheses prove the failure in the model;
entries without a theorem are observations from reading.

### Patterns and descriptors
* C02: for the limits [-π, π) the angle π comes back as π instead of -π (`C02_violated_at_pi`).
* C05: decoding a distance does not make it non-negative (`C05_decode_can_be_negative`).
* C09: `from_stat_space` of a dynamic pattern advances by the wrong dimension when `__cpp_lib_containers_ranges` is defined (`C09_from_stat_dynamic_violated`).
* C10: an empty run-time collection of angles is not Euclidean (`C10_euclidean_empty_violated`).
* C12: four presentations with differing verdicts, among them an unbounded range that is less than a finite pattern (`C12_violated`).
* C13: hash collisions within a kind (`C13_violated`).
* C14: compile-time shortcut for collections of different sizes (`C14_violated`).
* C15: the iterator of the transposed view subscripts wrongly across a swapped position (`C15_subscript_violated`, views/transpose.hpp:82-90).
* C17: uniform component of a two-dimensional descriptor (`C17_uniform_violated`).
* C18: slices are not range-checked (`C18_slice_unchecked`).

### Layouts
* C21, C22: packed and partitioned layouts collide for non-square extents and stacks (`C21_nonsquare_collision`, `C21_stack_collision`, `C22_nonsquare_collision`, `C22_nonsquare_out_of_span`).
* C24: `offset` of the accessors is wrong for every offset strictly inside the partition (`C24_violated`).
* C25: span, uniqueness and strides of the diagonal layouts (`C25_*_violated`).
* C26: strides of an implicit trailing index (`C26_strides_violated`).

### Values
* C27: exponent `INT_MIN` overflows (`C27_least_exponent_violated`); `pow` with real exponents of integral value: `pow(0, 0.)` is 0 (`C27_real_exponent_violated`).
* C28: `exp` of large arguments converts out of range (`C28_exp_violated`). C31, C66: quotients of exactly 2^63 (`C31_bound_violated`, `C66_bound_violated`).
* C29: complex `hypot` is the root of the sum of squares, so `hypot(1, i)` is 0 (`C29_complex_not_norm`).
* C32: complex `atan2` is half a turn off to the left of the imaginary axis (`C32_complex_violated`).
* C66: the reduction lands in two turns, not one (`C66_half_turn_violated`).
* C171: `signbit` in constant expressions compares with zero, so the sign of a zero or NaN is not seen (signbit.hpp:55; its documentation says so): `copysign(1.0, -0.0)` is 1 and `abs(-0.0)` is -0.0 (`C171_signs_violated`), where they are -1 and 0 at run time. `hypot(-0.0, 0.0)` is -0.0 (hypot.hpp:83-84, `C171_hypot_violated`), and `fmod(-4.0, 2.0)` is 0.0 instead of -0.0 (fmod.hpp:64, `C171_fmod_violated`). `atan2(-0.0, -1.0)` is π instead of -π, and `atan2(0.0, -0.0)` is 0 instead of π (math_utils.hpp:71-80, `C171_atan2_violated`).

### Linear algebra
* C34, C35: a constant on a proper triangle does not compile; a triangle empty at run time is reduced over nothing (`C34_*_violated`, `C35_empty_violated`).
* C36, C37: rectangular diagonal and constant operands lose their shape (`C36_*_violated`, `C37_rectangular_violated`).
* C38: the conjugate adapter hands on the unconjugated constant; `transpose<0, 2>` returns a symmetric-sliced tensor unchanged (`C38_*_violated`).
* C39: reductions of diagonal and empty objects (`C39_*_violated`).
* C40, C41: explicit indices to `get_slice` are ignored (get_slice.hpp:126), so `split<0>`, `split<1>` and `get_chip<0>` have the wrong shape; `tile` writes before it checks; concatenation of diagonal and of complex Hermitian operands (`C40_*_violated`, `C41_*_violated`).
* C42: rectangular constant matrices, `must_be_exact` with a zero matrix, complex constant-diagonal right-hand sides, unchecked rows (`C42_*_violated`). `must_be_unique` is ignored for constant operands.
* C43: LQ of a static column is clipped, run-time 1×1 constants throw, the complex 1×1 rank update lacks the conjugate (missing `_t`, rank_update_triangular.hpp:73), zero operands lose their shape (`C43_*_violated`).
* C115: both templates `operator=` of `EuclideanMean` accept a typed matrix that is not Euclidean-transformed if the pattern is fixed and Euclidean (EuclideanMean.hpp:105-157), so that assigning a `Mean` is ambiguous although constructing from one is not (`C115_assign_violated`). Seen but not modelled: `make_euclidean_mean` without a pattern returns a `Mean`; `Matrix += EuclideanMean` is accepted although the sizes differ; the bases `TypedMatrixBase` and `MatrixTraits` are not defined anywhere.
* C139: the fallback of the Eigen `cholesky_factor` for matrices that are not positive definite uses `matrixL()` and `vectorD()` of Eigen's LDLT but not `transpositionsP()` (eigen-library-interface.hpp:1289-1298): for `diag(0, 1)` the result squares to `diag(1, 0)` (`C139_pivot_violated`). It decomposes `nested_object(a)`, whose lower triangle Eigen reads, even if the upper one is significant (line 1274; `C139_upper_storage_violated`). `isNegative()` matrices pass and get square roots of negative numbers (`C139_negative_violated`); `[[0, 1], [1, 0]]` is taken for zero (line 1277; `C139_zero_diagonal_violated`). With dynamic sizes `b` is empty when a triangular view of it is assigned to (lines 1267-1268; `C139_dynamic_violated`).
* C140: `rank_update_triangular` throws whenever Eigen reports failure (eigen-library-interface.hpp:1334-1335), which for non-positive `alpha` includes results that are singular but valid (`C140_semidefinite_violated`).
* C141: `solve` with a Hermitian matrix refuses every indefinite one although LDLT fails for few of them (`C141_indefinite_violated`), and does not look at `must_be_unique` and `must_be_exact`; `0 X = 1` gets an answer (`C141_flags_violated`). Without flags a wide general system is solved by QR without exchange of columns, so that `0 x + 1 y = 1` is not solved (`C141_neither_violated`).
* C147: the type of a concatenation is that of the first part, and the parts are taken by their nested matrices (typed-matrix-overloads.hpp:269-330), so that an `EuclideanMean` and a `Mean` of angles standing for the same points cannot be joined (`C147_mixed_violated`). `concatenate_diagonal` of `EuclideanMean`s fills with zero, and (0, 0) is no point of a circle (`C147_diagonal_violated`). `split_diagonal` (453) names a member of a type where a type is needed and compares with `MatrixTraits` itself, so that it never compiles; it is not modelled. `determinant` (199-202) of a `EuclideanMean` is that of the nested matrix, in the statistical space.
* C149: `solve(A, b)` is made of the type of `b` (typed-matrix-overloads.hpp:227-234): it has the row pattern of `b`, not the column pattern of `A`, and if `b` is a `Mean` of angles the solution is wrapped: ½ x = 180° gives x = 0° (`C149_angles_violated`).
* C159: `make_fixed_size_adapter` (50-54) takes an existing adapter off and forgets its sizes (`C159_forgets_violated`). `make_fixed_square_adapter_like<D>` (58-60) passes on `Ds...` but not `D`, so that `to_diagonal`, `LQ_decomposition` and `QR_decomposition` of an adapter do not use the size they know (`C159_square_violated`). `broadcast` (FixedSizeAdapter.hpp:424-440) multiplies the pattern of the result, not of the argument, and makes an axis of each index without a factor: the type claims one column where there are others (`C159_broadcast_violated`). Not modelled because they cannot compile: `get_slice` (`std::declval<T>` without a call, 322), `to_stat_space` and `from_stat_space` (a comma outside of `tuple_cat`, 556 and 582), `diagonal_of` of a nested vector (one argument short, 413), `cholesky_factor` (803) and the rank updates (828, 853).
* C165: `make_dense_object_from<T>` accepts every multiple of the size of a fixed-size `T` (may_hold_components.hpp:22-44), so that eight components for a 2×2 matrix compile and fail an assertion of Eigen; it refuses an empty list for a matrix with one dynamic extent, although the extent can then only be zero.
* C165: a list makes a column neither through `make_matrix` nor `make_mean`: components are in row-major order by default, and `make_default` of Eigen refuses a row-major column by a static assertion (eigen-library-interface.hpp:392-395). Nor can a row be made from components listed by columns (`C165_row_violated`).
* C165: beside the constructor of `Covariance` from a list only the lower-left triangle is said to be significant (Covariance.hpp:172-177); the default storage is the upper triangle (forward-class-declarations.hpp:71-72), and this is the one that is read.
* C165: `make_square_root_covariance` from a list declares a variable `tri` in the scope of its template parameter `tri` (default-overloads.hpp:398), and the uninitialised one ignores its parameter `Scalar` and is always of `double` (438-451).
* C165 (read as intended in the model): `make_dense_object_from` passes a layout type on where `make_dense_object` takes an enumerator; the closing brace of the namespace in default-overloads.hpp stands inside `#ifndef OPENKALMAN_FIRST_INTERFACE`.

### Covariances
* C44: stale values when the nested matrix cannot be assigned (`C44_case32_violated`).
* C45: assignment tests the target's flag instead of the source's (`C45_violated`, `C45_assign_other_violated`; `C45_assign_correct_iff` gives the exact set).
* C46: reads and writes through references skip synchronisation (`C46_violated_stale_read`, `C46_violated_lost_update`).
* C47: scalar products of square roots return a covariance, negative and complex scale factors, in-place sums with diagonal arguments (`C47_*_violated`). `to_triangular<t>` with run-time `t` (covariance-arithmetic.hpp:330, 402) does not compile.
* C63: splitting a Cholesky factor after the first block, one-dimensional pieces of diagonal square roots, mixed operands, complex storage triangles (`C63_*_violated`).

### Filters, transforms, distributions
* C53, C56: the cross-covariance of consecutive transforms belongs to the last step only (`C53_cross_violated`, `C56_cross_violated`); `IdentityTransformation` has zero noise Jacobian (`C53_identity_violated`).
* C58: the coefficients of the spherical simplex are quotients of integers (`C58_violated`, `C58_default_violated`).
* C59: combining two empty accumulators divides by zero (`C59_init_twice` for the effect of a repeated initial value).
* C60: `operator-` of distributions subtracts covariances (`C60_difference_violated`); splitting follows C63 (`C60_split_violated`).
* C62: an exception from the transformation leaves the input perturbed (`C62_throw_violated`); differences of angular outputs are not wrapped (`C62_wrapped_violated`).
* C64: a covariance stored as an upper Cholesky factor is read as if it were a lower one in `LinearTransformBase.hpp:52-91`, `KalmanFilter::update_step` (reached through `IdentityTransform`) and the sample points, where an upper-stored self-adjoint matrix has the same effect (`C64_transform_upper`, `C64_identity_violated`, `C64_points_upper`).
* Residuals of angular measurements are not wrapped (typed-matrix-arithmetic.hpp:45-59). Neither `operator()` of `KalmanFilter` can be instantiated (by reading): both pass the name of a member function template to `std::apply` (KalmanFilter.hpp:121, 178), which is not an expression that can be an argument, and the single-transform one also binds three names to a pair (120). `Kalman.cycle`, which C50, C155 and C156 use, is what the two-transform one evidently means: `predict` and then `update`, which can be instantiated, and `C50_cycle` says so.
* `cholesky_form` (concepts/object-types.hpp:218-223) is true of every object that is not a covariance in C++20, and false in C++17.
* C78: the difference of two means is a plain matrix and not wrapped, unlike `-=` (`C78_sub_violated`); halving and other fractions depend on the numbers (`C78_scale_violated`); a `Mean` assigned from a `EuclideanMean` keeps a negative distance (`C78_distance_violated`). By reading: `TypedMatrixBase` and `set_wrapped_component` are not defined anywhere; the header for `wrap_angles` is commented out; the difference of typed matrices uses `difference_type`, which no descriptor defines; `to_stat_space` of a mean drops the pattern.
* C79: deviations from the mean and residuals are not wrapped: the covariance of outputs across the end of the range is wrong (`C79_rotation_violated`: π²/16 becomes 25π²/16), and so is an update (`C79_update_violated`: predicted 350°, measured 10°, result 180°); with negative weights a mean distance can be negative (`C79_distance_violated`).
* The Monte Carlo transform keeps the running mean of the inputs in a `Mean`, which wraps the sum before it is divided (MonteCarloTransform.hpp:128, 147). For angles the cross-covariance is wrong even if all inputs are equal, and depends on the order of the parallel reduction (`C114_cross_violated`, `C114_order_violated`). With an angular output the transform does not compile (line 57: rows of the pattern, not of its statistical space).
* C134: the second-order transform leaves out products of components of different terms (input and noise): the Hessians are taken term by term (FiniteDifferenceLinearization.hpp:159-200) and so is the correction (LinearizedTransform.hpp:109-115). The reported variance of the product of two independent standard normal numbers is 0 (`C134_mixed_violated`). Also, `add_correction` names the result of calling the transformation with the input alone (line 167), so a transformation that needs its noise terms does not compile with order 2 (not modelled).
* C135: Unscented.hpp:33 says that beta = 2 is optimal for Gaussian distributions. It makes the covariance exact to second order for one dimension with kappa = 0 only; for two dimensions the reported variance of the squared length of a standard normal vector is 8 instead of 4, for every alpha (`C135_pair_violated`).
* C143: the square-root filter throws in the update if the prior is singular, since the downdate of C140 does; the filter on covariances does not (`C143_singular_violated`).
* C144: without explicit derivatives a `Transformation` keeps a reference to the constructor's argument (Transformation.hpp:102-106, 162-166; `get_Taylor_term`, TransformationTraits.hpp:103-113) beside its own copy of the function: `Transformation t {F {}}` has a dangling Jacobian (`C144_temporary_violated`), and after a change of the function object it goes on with the old function and the derivatives of the new one (`C144_changed_violated`). A transformation of order 0 that is not `const` cannot be copied, since the unconstrained constructor 65-66 is the better match (`C144_copy_violated`).
* C145: each of `operator()`, `jacobian` and `hessian` samples anew, so that value and derivatives belong to different points (`C145_same_point_violated`). `IdentityTransformation` (53-56) admits distributions as perturbations but adds them without sampling, which does not compile (`C145_identity_violated`).
* C150: nothing checks that `beta ≥ alpha²`. With alpha = 1, beta = 0 and kappa = −1/2 the square of a standard normal variable gets the variance −1/2 (`C150_parameters`).
* C152: with a negative weight of the centre (the defaults of `UnscentedParameters`), the factor of the covariance is found by a rank update (ScaledSigmaPointsBase.hpp:161-188) that throws `std::runtime_error` if the result is singular. So the default unscented transform in Cholesky form throws for every function with a constant combination of outputs (`C152_dependent_violated`) and for every function with more than twice as many outputs as inputs (`C152_many_outputs_violated`), where the self-adjoint form and the cubature points work.
* C157: `construct_ps` (SamplePointsTransform.hpp:74-76) concatenates the groups of points instead of making a tuple of them, and `std::tuple {slice}` (207) copies the slice if there is one stage. `transform_impl` then has fewer or more groups than functions, or calls `std::tuple_cat` with a matrix: no call compiles (`C157_grouping_violated`), even apart from `tuple_slice`, which is defined nowhere. The properties of sample-point transforms (C56, C57, C79, C133, C135, C150–C152) are about `transform_impl` with the groups that are meant, which by `C157_grouped_partial` come out right.
* C162: sample points are columns of the lower Cholesky factor, so that what the cubature and unscented filters report depends on the order of components: the mean of the fourth power of the first of two correlated components is 625/2, and 337/2 if the two are exchanged (`C162_order_violated`). Units, origins and combinations with earlier components do not matter (`C162_lower_partial`), and for each square root in one system of coordinates there is one in the other that gives the same (`C162_reaches`).
* C172: `RecursiveLeastSquaresTransform::transform_with_cross_covariance` returns the scaled covariance P/λ as the cross-covariance of input and output (RecursiveLeastSquaresTransform.hpp:88-92). With λ < 1, as by default, and without noise there is no joint distribution with P, P/λ and P/λ, and an update with this transform as the measurement reports the negative definite covariance P - P/λ (`C172_cross_violated`); `C172_cross_iff` says how much noise makes up for it.
* C173 (by reading, not modelled): all draws use one static engine without a lock (randomize.hpp:36-45), and `std::reduce` is called with `par_unseq` (MonteCarloTransform.hpp:252, 285), so that draws may race; `operator=` of the iterator (178) returns nothing although its return type is `auto&`. The theorems assume independent draws.

### Eigen traits
* C69: a difference whose left operand is zero is reported as the right operand (`C69_difference_violated`, the difference is entered as a sum in functors/binary.hpp), and so are comparisons, `hypot` and absolute differences (`C69_neutral_violated`); the component-wise product of constants is reported as a constant diagonal (`C69_product_of_constants_violated`); Hermitian reports for complex functors that do not commute with conjugation and for complex scale factors (`C69_unary_hermitian_violated`, `C69_unary_arg_violated`, `C69_bound_scalar_violated`); every other nullary functor, such as random components, is reported constant (`C69_nullary_violated`).
* C70: replicated lower triangles are reported as upper ones, replicated rows as Hermitian, reversed rectangular diagonals as diagonal, products of rectangular identities as the identity, unit triangular views of zero as zero; the diagonal of a zero matrix throws for an index known at run time (`C70_*_violated`).
* C71: unary functors are applied to the diagonal only, although zero may not be mapped to zero (`C71_composition_violated`); a single row or column counts as having zeros off the diagonal (`C71_product_violated`, `C71_minimum_violated`).
* The constant of a contraction of constants is multiplied by extents of the *contraction* at the indices of the left operand (TensorContractionOp.hpp:67-68, 82-83, 91-92): a 2×3 times a 3×4 matrix of ones is reported constant 4 instead of 3 (`C106_constant_violated`), and the inner product of two vectors reads an extent that does not exist (`C106_undefined_violated`). A 2×1 identity times ones is reported constant (`C106_diagonal_violated`). A contraction with i times the identity is reported Hermitian (`C107_hermitian_violated`). The same factor is used for a diagonal matrix contracted along both its indices: the 2×2 identity with ones of extents 2, 2, 3, 3 is reported constant 3 instead of 2 (`C106_pairs_violated`).
* `get_constant_diagonal` of a contraction calls `lhs()` and `rhs()`, which `TensorContractionOp` does not have (TensorContractionOp.hpp:104-105), and `get_constant` of `TensorReductionOp` calls itself; neither compiles to something that could be modelled. The rules for component-wise tensor operations are the same as those for matrices (C69).
* The evaluator of a complex Hermitian adapter around a matrix returns, across the diagonal, a reference to a temporary conjugate, and on the diagonal the element with its imaginary part, although documented to access only the real part (native-evaluators/HermitianAdapter.hpp:82, 90, 95-101; `C108_dangling_violated`, `C108_diagonal_violated`); with a single index the imaginary part is always kept (lines 107-110; `C108_linear_violated`). A diagonal adapter around a one-by-one adapter of dynamic size cannot be read (`C108_nested_violated`).
* These evaluators name `values::` and `patterns::` inside of `Eigen::internal`, where they are not visible, and eigen-native-evaluators.hpp includes files that do not exist under these names (lines 24-27); the evaluator of `from_stat_space_adapter` calls a member function with the arguments of the free function (line 181). The model takes what was evidently meant.
* C116: a 4 × 4 matrix reshaped to 8 columns and a dynamic number of rows is guaranteed to be square (`C116_square_violated`: `Cols * Cols` is not compared with the number of components, Reshaped.hpp:123-127); an empty matrix makes `is_square` ill-formed (`C116_empty_violated`: remainder by zero); a dynamic 2 × 8 diagonal matrix reshaped to 4 × 4 is reported Hermitian (`C116_hermitian_violated`). Moreover `is_hermitian` names `hermitian_matrix` with two arguments, of which the concept has one.
* C117: a `DiagonalWrapper` of a column of three is not even permitted to be square (`C117_square_violated`: `is_square<N>` asks whether the vector is square in `N - 1` indices, DiagonalWrapper.hpp:78), whereas a `DiagonalMatrix` is guaranteed to be square in any number of indices (`C117_matrix_violated`). A `VectorBlock` has no index if the nested object is column-major and one if it is row-major, whatever its extents (`C117_count_violated`).
* C146: `(mean << a, b).finished()` returns unwrapped values, since `operator,` is that of the base class (eigen-comma-initializers.hpp:45-49; `C146_finished_violated`). `auto ci = (x << a, b); ci, c;` wraps only what was written before the copy for means (`C146_kept_violated`), and for diagonal matrices and covariances writes into a matrix that no longer exists, since the copy constructors 82-83 and 146-147 copy the reference (`C146_kept_diagonal_violated`). A covariance stored as a complex diagonal takes the values spelt for those of its square root (`C146_complex_diagonal_violated`).

### Shapes
* C72: the order of a 2-by-0 object is 1, not 0, since a zero extent only counts if no extent above 1 precedes it (`C72_order_violated`); the loop for the same purpose, which is never reached, is right (`C72_order_loop`).
* C73: a collection of as many indices as the index count, which `index_collection_for` admits, does not compile or reads past its end if the rank is higher (a 3-by-1 object and one index), in checked access as well; so does a run-time collection that is too short (`C73_access_violated`).
* C74: indices beyond the index counts are not compared, although a pattern other than `Dimensions<1>` of dimension 1 may belong to them (`C74_match_violated`).
* C75: `to_extents<1>` of `extents<2, 1>` has rank 2 (`C75_rank_violated`).
* C76: collections without end and without a fixed common dimension are never found to compare or to have a common dimension; an array of no patterns is treated as if it had one; the concepts disregard the padding for collections of run-time size; a single pattern of unknown dimension has no common dimension according to the concept (`C76_*_violated`). `is_one_dimensional` documents `N = 0`, but the function it calls requires `N > 0`.
* C77: a single angle is converted into a store of one element (`C77_one_component_violated`); with run-time dimensions the store is a vector that has room but no elements (`C77_dynamic_violated`); an object with two trailing extents 1 does not compile (`C77_rank_violated`); a copy refers to the store of the original (`C77_copy_violated`). By reading: `from_stat_space_adapter` derives from the base of `to_stat_space_adapter`; `from_stat_space` asks whether the collection, not its first pattern, is a Euclidean pattern; `wrap_angles` uses a trait that does not exist.
* C80: a transposition of other indices than 0 and 1 passes on triangle, Hermitian and square shape unchanged (`C80_transpose_square_violated`, `C80_transpose_triangle_violated`); the conjugate of an object with a complex constant gives the constant unconjugated (`C80_conjugate_violated`); a pattern that fixes dimensions makes the upper triangle of a constant a constant (`C80_pattern_constant_violated`), and one of rank 1 makes a transposed row one-dimensional (`C80_pattern_rank1_violated`); the diagonal of a constant triangle cannot be used (`C80_diagonal_constant_violated`); a 3×3 Hermitian adapter is `square_shaped<1>` (`C80_hermitian_square_violated`); fixed dimensions of a pattern do not count for `square_shaped` (`C80_pattern_square_violated`).
* C81: the assertion of `pattern_adapter` is inverted and that of `to_diagonal_adapter` compares the pattern with itself: patterns known at run time abort when they match and pass when they do not (`C81_assertions_violated`).
* C166: `patterns_may_match_with` compares the first type with each of the others only (patterns_may_match_with.hpp:28-33). A dynamic extent may match 2 and may match 3, so it holds of `(dynamic, 2, 3)` although 2 and 3 never agree, and not of the same types in the order `(2, dynamic, 3)` (`C166_may_violated`).

### Values in place
* C82: `set_triangle` on a Hermitian adapter that keeps the other triangle passes the conjugate transpose to the nested object but the triangle unchanged, so it overwrites the triangle that is not used: no element off the diagonal changes (`C82_hermitian_violated`). The loops for objects without a hook copy element `(i, i)` instead of `(i, j)`, and for the lower triangle leave out the first diagonal element (`C82_loop_violated`).
* C83: `contract_in_place<false>` computes `A B` instead of `B A` for Eigen triangular views and for objects without a hook (`C83_left_violated`). The check for square matrices compares the two sizes with each other only (`C83_square_violated`).
* C84: `copy_from` does not compare extents that are known at run time (`C84_extents_violated`), does not compile for a destination with one column known at compile time (`C84_column_violated`), and overwrites a source that is the transpose of the destination while reading it (`C84_alias_violated`).
* C85, C86: the Eigen interface reads the diagonal of unit and strict triangular views from the matrix below the view, and a diagonal object on a row vector at `(i, 0)` (`C85_get_violated`, `C86_diagonal_of_violated`, `C86_to_diagonal_violated`).
* C87: `broadcast` accepts a factor 0 known at compile time (`C87_zero_violated`).

### Component-wise operations
* C88: `find_max_dim` has its assertion for fixed extents the wrong way round: extents 3 and 1 (in this order) are refused and 3 and 2 are accepted, giving a result whose last elements use element 0 of the smaller argument (`C88_fixed_violated`).
* C88: an extent of 0 is only refused for the last argument; a fixed 0 before a run-time 1, or a run-time 0 before a fixed 1, is accepted (`C88_zero_violated`).
* C89: `replicate_arg` has no `return`, so an operation with indices on arguments of a library with its own `n_ary_operation` does not compile (`C89_hook_violated`); for one-by-one results an operation with indices is called without them (`C89_one_by_one_violated`).
* C90: one operation for each element of a column-major matrix is laid out by columns, not by rows as documented, and the order of the indices is ignored in that branch (`C90_layout_violated`); a single operation with indices for one element does not compile (`C90_single_violated`).
* C91: an object that keeps two elements in one place (a Hermitian adapter, a self-adjoint view) has the operation done twice to them (`C91_symmetric_violated`).
* `equivalent_to_uniform_pattern_component_of` is used in `n_ary_operation.hpp` but declared nowhere at this commit; it is modelled as the compile-time form of `is_uniform_pattern_component_of`.
* C129, C130: one distribution for each element of a column-major matrix is laid out by columns, against the example of the documentation (`C129_layout_violated`); a number passed as an lvalue meets the constraints, but `std::is_arithmetic_v` is asked of the deduced reference type (randomize.hpp:56, 70), so the number is called like a function and the program does not compile (`C129_lvalue_violated`).

### Closeness, comparison and conversion of numbers (C92–C94)
* `near(a, b, e)` for unsigned numbers (near.hpp:107-110) compares with `-e`, which wraps: with any `e > 0` no number is near itself (`C92_unsigned_violated`). A negative `int` is near the `unsigned` number it wraps to, differences of `int`s may overflow, and the sign of the error is ignored exactly if a number is complex (`C92_sign_violated`, `C92_overflow_violated`, `C92_negative_violated`).
* `fixed_value_compares_with` converts `N` to the type of the value (fixed_value_compares_with.hpp:35): an integral 1 equals 1.5, an unsigned 3 is less than −1, a signed −1 equals `dynamic_extent` (`C93_convert_violated`).
* `cast_to<std::complex<int>>` of a `std::complex<double>` returns its argument unchanged, because the real type of `int` is `double` (cast_to.hpp:147, make_complex_number.hpp:134; `C94_cast_complex_violated`); a negative real part given to a complex number with unsigned parts wraps (`C94_update_violated`). The `requires` clause of `fixed_value` (fixed_value.hpp:34-37) is always satisfied, as its second and third alternatives exclude each other's failure; and `fixed_partial_ordering_less::type` and its siblings name `fixed_partial_ordering_equivalent` (fixed-constants.hpp:145, 158, 171). The last two are noted from reading.

### Types of patterns
* `compares_with_iter` adds a run-time dimension to the second bank without regard to its meaning (compares_with.hpp:100): `tuple<Dim<1>, Dimensions<>>` is guaranteed unequal to `tuple<Dim<1>, Dim<1>>` (`C95_bank_violated`).
* `Any` is treated as if it held a non-Euclidean descriptor (`C95_any_violated`); `is_lt` and `is_gt` are refused where they are possible (`C95_strict_violated`); elements of dimension zero beside a range (`C95_range_violated`).
* `uniform_pattern`: two types of the same descriptor are not uniform (`C96_same_violated`); a guaranteed uniform pattern with an element of dimension zero is not permitted, nor is an empty range of polar coordinates (`C96_zero_violated`); a tuple beginning with a polar coordinate is permitted (`C96_first_violated`).
* `most_fixed_pattern` compares only the first pattern with the others (`C97_pairs_violated`).

### Backports of the standard library
* `advance(i, n, bound)` with a sized sentinel goes to the bound if there are fewer steps than the distance and beyond it if there are more (range-access.hpp:364-371; `C99_sized_exact`, `C99_bounded_violated`).
* `concat_view` computes its tables on construction but its size anew: if a container it refers to grows, elements are read outside of the table or from the wrong part (concat.hpp:319-321; `C100_stale_violated`).
* `concat_view::iterator` returns elements by value although `reference` is declared as a reference (concat.hpp:143); its converting constructor uses private members of another class (concat.hpp:161). Not modelled.
* `iota_view::size` negates the least number of a type (iota.hpp:276-277; `C101_size_violated`); the distance to the sentinel is computed in the type of the numbers and wrong beyond 2³¹ unsigned numbers (iota.hpp:199-202; `C101_distance_violated`). `end()` never returns an iterator as the sentinel overload is preferred (iota.hpp:238-247; not modelled).
* With C++17, copying a `movable_box` of a type that cannot be assigned does nothing (movable_box.hpp:210; `C102_copy17_violated`); if copying may throw it does not compile (209; `C102_copy17_throwing_violated`); moving returns a pointer (257-258) and with C++20 copies (240) (`C102_move_violated`).
* `partial_ordering` made from a number that is not one of the constants is at most zero without being less or equivalent (comparison.hpp:120, 153; `C98_from_number_violated`).
* The bundled `extents` compare as equal over the rank of the left-hand side only: `extents<2> == extents<2, 3>` is true and the reverse comparison false, and `extents` (2, 2) with open ranks equals `extents<2>` (`C110_equal_violated`).
* `layout_stride::mapping::is_unique` is always true though strides are not checked (`C112_unique_violated`); with `NDEBUG`, conversion of a strided mapping to `layout_left` or `layout_right` ignores the strides (`C112_fromStride_violated`).
* `compatibility/mdspan.hpp` line 50 lacks a semicolon, so that the header does not compile where the standard library has `mdspan`. For a slice with static extent and step, `submdspan_extents` hands over extent divided by step instead of rounding up; the value is dropped because the extent is static, so that shapes are right (`C113_part`), but it would trip the assertion under `_MDSPAN_DEBUG`.
* `matrix_frob_norm` uses `scale / |a|` in both branches (blas1_matrix_frob_norm.hpp:88-96); the second one needs the inverse. The result is too large as soon as a non-zero component is smaller than one before it: `[2, 1]` gives √20 (`C119_frob_norm_violated`).
* The Hermitian rank-1 update without `LINALG_FIX_RANK_UPDATES` and the Hermitian rank-k update accept a complex factor and then store a diagonal that is not real (`C124_factor_must_be_real`); C124 demands a real one.
* The complex `setup_givens_rotation` scales `r` back by `for (int i = 1; i >= -count; --i)` (blas1_givens.hpp:341), which should be `++i` up to `-count`: with `count` below -1 it does nothing. For `double` and numbers below 2^-970, `r` is too large by a factor of at least 2^970 (`C126_r_violated`, `C126_small_wrong`).
* `transposed_layout<layout_transpose<Nested>>` (transposed.hpp:327-330) has no function `mapping`, so `transposed(transposed(a))` does not compile if the layout of `a` is none of the three standard ones; `layout_transpose::mapping::is_always_exhaustive` (131-133) calls `is_always_contiguous`, which no mapping has (`C127_twice_violated`).
* C153: `span<T, 5>` can be made of a dynamic span of three elements, implicitly and without a check (span.hpp:387-395; `std::span` requires equal sizes, and the constructor is explicit); then the check of `operator[]` compares with 5 (`C153_convert_violated`). `subspan(offset, count)` checks `offset + count <= size()` modulo 2^64, which `subspan(2, 2^64 - 2)` passes (450-451, `C153_overflow_violated`).
* C154: `mdarray::size()` is the size of the container (mdarray.hpp:412-415), not the number of elements (`C154_size_violated`). A `std::array` as container is not compared with the size needed (49-52, `C154_array_violated`). After a move the extents stay while the container is empty (`C154_moved_violated`). The conversion operators to `mdspan` (432-454) are constrained by assignability in the wrong direction: from the target to the `mdspan` of the array.
* C158: `to` asks `input_iterator<Rg>` (to.hpp:226) of the range instead of its iterator, so that construction from a pair of iterators is never chosen for a container. The loop that remains calls the unconstrained `emplace(c.end(), *it)` of sets and maps, which does not compile, and `insert` of containers that have none. `to<std::set<int>>` and `to<std::forward_list<int>>` are refused (`C158_standard_violated`).

### Collections
* `get_size` of a `std::ranges::subrange` is 2 whatever it contains, since `std::tuple_size` is tried first; `get` with a constant index gives its iterators, with one known at run time its elements (get_size.hpp:32-33, get_element.hpp:68-75; `C103_subrange_violated`, `C104_subrange_violated`). An array of unknown bound has size 0 (get_size.hpp:93-94; `C103_unknown_bound_violated`).
* `tuple_flatten` uses `std::get` for all elements (tuple_flatten.hpp:38): tuples of other kinds that it accepts do not compile. Not modelled.
* C169: `views::all` asks `collection_view<R>` of the type `R` of a forwarding reference (all.hpp:41). For a named argument this is a reference, which is never movable and hence never a view. So a view made of a named view holds a pointer to that view object instead of a copy (`std::views::all` asks it of the decayed type): it dangles when the named view goes out of scope or is moved from, although the container lives (`C169_destroyed_violated`, `C169_moved_violated`), and it shows other elements when the named view is assigned to (`C169_assigned_violated`).

## Not modelled

* Floating-point rounding and exceptional values, other than where listed.
* Eigen itself, expression templates, aliasing of views, move semantics (other than C102, C154, C169), `constexpr` evaluation (other than the branches it takes).
* Of `basics/compatibility`: adaptor closures, concepts, invocation; of linalg all but the loops and views in C118 ff., so the forwarding of execution policies and the proxy references (the packed layout is declared only).
* Of the traits under `interfaces/eigen`: homogeneous expressions, classes of solvers and decompositions (C139 ff. have the functions that use them), maps and their strides; most of those under `interfaces/eigen-tensor` (C106, C107 have the contraction).
* Random number generators and the distributions of the standard library: C129 has any state that changes with each draw, C130 a stream with one item for each draw (`std::normal_distribution` uses two).
* Angular outputs of the Monte Carlo transform (they do not compile); `filters/ParticleFilter.hpp`, the stubs among the distributions and `adapters/interfaces/adapters-interface.hpp`, which nothing uses.

## Testing of the theorems

`seeded/LOG.jsonl` has one line per deliberate error in a model definition: the definition, the edit, the claim it breaks,
the theorems that no longer build, and the theorems added or strengthened because of it. The edits are made in
a scratch copy.
