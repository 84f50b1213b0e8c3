# Formal model of hermipy: design and trusted base

Source: `/repo` (urbainvaes/hermipy at the pinned commit), read as text. Nothing in it was built, run or changed.
Prover: Lean 4.33.0 with the Mathlib in `/app/mathlib4-4.33.0`. Lake project in `/verif/lean`.

## 1. Trusted base

* Lean's kernel, and the three standard axioms `propext`, `Classical.choice`, `Quot.sound`.
  No own axioms, no `sorry`, no `native_decide`/`bv_decide`, no `implemented_by`, no `unsafe`.
  Axioms per theorem: section 6.
* The translation from C++/Python to the model, by hand. Every model definition cites file and lines.
* Arithmetic on `double` is modelled as exact real (or commutative ring) arithmetic. Overflow and NaN are out of scope. Rounding is, too, except in
  C91, C95 and C97, where the numerical loops run over floating-point numbers; `-Ofast` (cpp/CMakeLists.txt:8) may reorder the operations, which is not modelled.
  Conversions from `double` to `u_int` are modelled with their undefined range.
  Statements that only move numbers around (projection, lookups, conversions, subdegree) are proved for an arbitrary
  entry type and therefore hold for floats too.
* `u_int` is `unsigned int` with 32 bits. Loop counters and multi-index entries are modelled as natural numbers;
  wherever a C++ expression can wrap or be out of range for parameters a user can pass (sizes, degree recovery, products in `cross_nc`,
  `dim - 1` for `dim = 0`, `-1 * k` in unsigned arithmetic) the wrap or the undefined conversion is in the model.
* Library calls taken as specified: `std::vector`, `std::unordered_map`, `std::to_string`, `boost::math::binomial_coefficient<double>`
  (exact below 2^53, it rounds to the nearest integer), `pow` on small integers (exact below 2^53), ublas `compressed_matrix`
  as a finite map, numpy/scipy slicing and broadcasting, `np.save`/`np.load`, sympy rewriting. md5 is an arbitrary function to strings of 32 characters
  without dash; it is never assumed injective (that would be unsatisfiable): theorems conclude "or two of these byte strings collide".
* Writes one past the end of a buffer are undefined behaviour unless a parameter `slack` says that unused memory follows the buffers
  (`wrPad` in `Model/Hermite.lean`). Theorems that hold for every `slack` hold in particular for `slack = 0`, strict C++.
* Build flags: `CMakeLists.txt` appends to the default `CMAKE_CXX_FLAGS_RELEASE` (`-O3 -DNDEBUG`), also for the debug type,
  so `assert` is compiled out; checks under `#ifdef DEBUG` are off in release. The model follows the release build.

## 2. Shape of the model

Outcome type (`Verif/Out.lean`): `Out α = ok a | stop ub | stop (exit code) | stop throws | diverge`.
Out-of-range vector access, bad double-to-unsigned conversion and `dim - 1` at `dim = 0` are `ub`; `exit(n)` is `exit n`;
`std::out_of_range` and Python exceptions are `throws`. Unbounded loops are `partial_fixpoint` definitions whose bottom is `diverge`,
so termination is a theorem, not an assumption.

Layers: `Verif/Model/*` (code), `Verif/Spec/*` (independent specifications), `Verif/Lemmas/*` (helper lemmas),
`Verif/Props/*` (one theorem block per property with a concrete instance of its hypotheses next to it).

## 3. Plan per property

(One line each: what is modelled; how it is proved.)

| id | model | proof |
|----|-------|-------|
| C01 | `Triangle::s_increment` with checked accesses, constructor loop as `partial_fixpoint` | the increment is the successor for the order (sum, reversed colex); generic chain lemma: sorted, complete, terminating |
| C02, C03 | `Cube`/`Rectangle` `s_increment` | order (max, last argmax, colex); odometer lemma; one proof for all factor lists |
| C04 | `Cross::s_increment` incl. factor search; degree 0 | order (product, colex of max(1,.), colex); ordered-factorisation successor |
| C05 | `Cross_nc::s_increment` with 32-bit products, inner loop `partial_fixpoint` | filter of the triangle order; exit(1) unreachable |
| C06 | `s_size` with conversions/wrap | counting each set |
| C07 | same lists | two sorted lists, one an initial segment of the other; witness against cross_nc |
| C08, C09 | `s_index` | index of successor = index + 1, along the chain; UB witness at zero for cube |
| C10, C11 | `pos_bissect` and `s_get_degree` | loop invariant, strict monotonicity; UB witness for dim 5, failures for cross degree 0 and cross_nc degree 1 |
| C12 | `hash_print`, hash table as association list with first-insert-wins | decimal representation is injective and '-'-free |
| C13 | iterator object as state machine | induction on the call history |
| C14 | `Grid_iterator` | mixed radix; `ub`/divergence for zero bounds |
| C15, C16 | `project.cpp` | loop invariant over the list; embedding is injective |
| C17, C18, C19, C21 | `tensorize.cpp` incl. pairwise merge | entry formula by induction over the blocks |
| C20 | composition of the above | corollary of entry formulas |
| C21, C22, C23 | `inner.cpp` merge and three cases | entry formula, then reindexing of sums |
| C24 | `hermite_eval` with checked writes | recursion against `Polynomial.hermite`; UB witness at degree 0 |
| C25 | Gaussian measure | integration by parts / moments |
| C26, C27, C28, C29 | `_transform` with the grid iterator | sum formulas; Fubini on tensor grids |
| C30 | nodes and weights of `Quad.fourier` | roots of unity |
| C31, C32 | `integrate`, Fourier parity check | unfolding; UB witness |
| C33, C34 | `triple_products_1d`, `triple_products_fourier` with checked table accesses | recurrence; product-to-sum formulas |
| C35, C36, C37 | `varf` template with threshold | linearisation identity pointwise; truncation witness for cross and for Fourier triangle |
| C38 | sparse/dense variants | both equal the same entry function |
| C39, C40, C41, C42 | `varfd` generic and `mat` specialisation | entry formula; out_of_range and unsigned-wrap witnesses |
| C43, C44 | `sparse.cpp`, `converters.cpp` on flat buffers | loop invariants; witnesses for non-square, strided, duplicated |
| C45 | `discretize` | grid order |
| C46 | `intern_function` as state machine over a file map | invariant over histories; collision and compile-failure witnesses |
| C47, C48 | `cache.py` wrapper as state machine over a file map; `gen_hash` on a value type, md5 abstract | induction on pairs of comparable arguments; invariant over histories; collision witnesses for every md5 |
| C49 | `finest_common` with nondeterministic picks | join of partitions |
| C50, C51 | `Function.split`, `Function.project` on lists of factors with variable sets | invariant of the dictionary |
| C52, C53, C54 | `Position` on direction lists | case analysis/induction |
| C55, C56, C57 | `Series`/`Varf` index manipulation | from C07, C08; witness cross_nc, lost factor |
| C58 | `to_function` on 1d/nd series | equality iff unit scaling; witness |
| C59 | `Operator.split` on lists of terms, tests as monomials | lexicographic processing order |
| C60, C61 | arithmetic of `Series`/`Varf`, numpy broadcasting rule for length one | entrywise; broadcasting witness |
| C62 | `log_stats` over call trees | induction on the tree; witness with an exception |
| C63 | `Position.__init__` | case analysis on the optional arguments; witness with the mean alone |
| C64 | `Quad.integrate` with and without `tensorize_at` | the fold over terms and blocks against the quadrature over blocks; witnesses with fewer directions |
| C65 | `Quad.eval` | the map between the two positions, then the backward transform against `seriesValue`; witnesses for types and correlation |
| C66 | `Quad.transform` after `Quad.eval` | the factor cancels, then C28 |
| C67 | `Series.tensorize` | C21 for the coefficients, C52 for the position, `fn_project` for the factor |
| C68 | `Quad.transform` with `tensorize` | the blocks of `tensorize_at` (C49, C50), each transformed (C26), multiplied by C67, the grid sum factors over the blocks |
| C69 | `Varf.tensorize` | C22 on positions relabelled by `idxOf`, C52 for the position; witness with shared directions |
| C70 | `Quad.varf` with and without `tensorize` | C35 for each block, multiplied by C69, the grid sum factors over the blocks; witness for the cross |
| C71 | `Quad.varfd` with and without `tensorize` | the loop over the directions as steps on columns; a step is a partial derivative under a homogeneous functional; each step acts in one block |
| C72 | `Quad.discretize_op` | C59 for the coefficients, C71 for each of them, sum over the dictionary = sum over the terms |
| C73 | `Series.project` | C15 for the coefficients, C53 for the position, C51 for the factor; means of basis functions are Kronecker deltas; witness for a coupling factor |
| C74 | `Quad.tensorize` | invariant of the loop which fills the slots of each direction; C52 for the position; sums over blocks of a grid for the integral; C51 for projections |
| C75 | `Varf.solve` | the library solver is a parameter, assumed exact on nonsingular systems (such solvers exist: `exists_exact`); kernel and cokernel of the bordered matrix |
| C76 | `Operator.__add__`, `__call__`, `map`, … and `Quad.discretize_op` with a factor | operators as lists of terms over a commutative ring with commuting derivations; `acts` of a composition by induction on the orders; the coefficients of `map` by the rule of Leibniz; C72 for the discretisation; instance: the ring of smooth functions |
| C77 | `equations.py` | the action of each expression on a function; derivatives of Gibbs densities; integrals of derivatives of functions with compact support vanish (Mathlib's integration by parts) |
| C78 | constructors in `quad.py` | quadrature of sums of products is the sum of products of one-dimensional sums (`quadrature_separated`), the same for integrals against product measures; one direction: Gauss rule and affine image of the normal distribution, geometric sums, Mathlib's error bound of the trapezoidal rule; its product by induction on the number of directions and Fubini |
| C79 | `Quad.integrate(flat=True)`, `Quad.norm` | the weight is the product of the densities over `surplus` (from C54); splitting of the density along the blocks of `tensorize_at`; C78 and the density of the normal distribution; orthonormality for Parseval |
| C80 | the pipeline constructors → `discretize_op` → matrix | recurrences of the basis give the eigenfunction equation in each direction; exactness of the rules (C28, C30) for products with at most one more degree; C76 for the entries; the maps of C77's harmonic potential give the same normal form as the generator |
| C81 | `__eq__` of `Series`, `Varf`, `Quad`, `Position` | the model has numpy's broadcasting and `scipy`'s refusal to do so; lists of arrays in the order of C01–C05 give the norm over the multi-indices; Cauchy-Schwarz for the values; witnesses for what is not compared |
| C82 | `CompQuad` | invariant of the loop: the sum so far has the entries of the weighted sum; C60 for sums of forms, C70 for the forms, C78 for exactness |
| C83 | the Gauss rule assumed in C78, C80, C82 | spectral theorem for the matrix of multiplication by `x` on polynomials of degree less than `n`; orthogonality for the nodes; formula of Christoffel and Darboux for the weights |
| C84 | `core.tensorize`, `project`, `inner`, `iterator_*`, the conversions before and after | conversions characterised exactly (success iff the nest is a vector, matrix or cube of numbers with nonempty first row); then C15-C18, C21 |
| C85 | `core.integrate`, `transform`, `varf`, `varfd` | the same; then C26, C31, C35, C39, C40, with C43, C44 for the conversions |
| C86 | errors of `gauss_hermite` and `fourier` for functions that are not integrated exactly | positive weights and exactness for the approximating sums (C78, C83); Taylor's theorem and the moments of the normal distribution |
| C87 | the data of `plot` and `plot_hf`, and the lines at the turning points | values on the grid (C48, C65), reshaping; the differential equation of the Hermite functions for the turning points |
| C88 | the data of `streamlines` | closed form of the two loops by induction; mean value inequality for the error |
| C89 | constructor, arithmetic, names of variables, C code and `sanitize` of `Function` | laws of substitution over any order of iteration; induction over tokens; distance of fractions |
| C90 | `solve_gaussian` and the Gaussian stationary densities of the equations | residual of a Gaussian as a polynomial; equation of Lyapunov by the spectral theorem; Gaussian integral by change of variables |
| C91 | rounding errors of `hermite_eval`, `transform`, `integrate`, `inner`, `tensorize` | the loops over any type of floats; running error bounds `(1+u)^n - 1` relative to the sum of absolute values; numbers with 53 digits as instance |
| C92 | `gen_error`, and the comparison in `cache` | numpy's broadcasting and norms over the reals (`Model/CacheError.lean`); entries and norms bound each other; history invariant of C47 |
| C93 | `Varf.eigs`, `Varf.solve` with `remove0` | the eigenvalue routine is a parameter, assumed exact; real and imaginary parts; reduction to C75; a complex eigenvector of the kernel is a multiple of a real one, so that the complex system has a real solution |
| C94 | the data of `Varf.plot` and `Series.plot`; `mapped_nodes` | listings of lower degrees are beginnings of listings (C10), first multi-index of each degree; text of the C code as in C89 |
| C95 | rounding errors of `triple_products_1d`, `triple_products_fourier`, `varf` | the loops over any type of floats with exact signs and comparisons; the Hermite table in closed form and then the three-term recursion for polynomials with positive coefficients; the Fourier table in lockstep with the real one; products in the order of the code; kept and dropped coefficients |
| C96 | `gauss_hermite`, `integrate`, `transform`, `weight` with correlated covariances | `eig` as a parameter: unit, linearly independent eigenvectors; the Gauss rule on a product grid for polynomials of bounded total degree (Fubini, one variable at a time); change of variables by the factor of the covariance matrix; the density and its moments from the standard normal one |
| C97 | rounding errors of `varfd`, `map_point`, `discretize` | the loops over any type of floats; where each stored element goes and what is done to it; composed with C95; running error bound of a row of the affine map |
| C98 | forms and operators with dropped coefficients | the kept form is the exact one up to the tolerance in each term; several derivatives are one factor and one index; the operator adds the forms of the orders |

## 4. Modelled and not modelled

| source | modelled | not modelled |
|--------|----------|--------------|
| `iterators.cpp/.hpp` | all five index sets: increment, size, index, degree recovery, listing, object protocol; grid iterator | |
| `project.cpp`, `tensorize.cpp`, `inner.cpp` | all templates, dense and sparse | |
| `hermite.cpp`, `transform.cpp`, `discretize.cpp` | all; `intern_function` as a state machine | the compiler and loader (abstract) |
| `varf.cpp` | `triple_products_*`, `varf`, `varfd` generic and specialised | |
| `lib.cpp`, `matrix.cpp`, `sparse.cpp`, `python/converters.cpp` | conversions on flat buffers with strides | dtype checks (there are none), reference counts |
| `python/module.cpp`, `core.py` | conversion of nested lists, `tensorize`, `project`, `inner`, `iterator_*`, `integrate`, `transform`, `varf`, `varfd` (`Model/Core.lean`); names of index sets as strings; numbers, vectors, dense and sparse matrices as arguments | arrays with three or more axes other than lists of matrices, ragged rows (numpy makes object arrays of them), conversion of numbers by boost.python, `discretize` (in the model of `quad.py`) |
| `cache.py`, `stats.py`, `lib.py` | `gen_hash`, `gen_error`, `cache`, `log_stats`, `finest_common`, `cross_in_triangle` | timing, printing |
| `function.py`, `position.py`, `operator.py` | `Function` (constructor, arithmetic, `as_xyz`, `ccode`, `sanitize`: `Model/FunctionObject.lean`, over any type with the operations and laws `SymLaws` of sympy), `split`, `project`, `tensorize`, `weight(s)`, `__eq__`, `Operator` (`split`, arithmetic, calls, `map`: `Model/OperatorAlgebra.lean`) | printing, sympy itself: an expression is a list of terms over a ring, equal terms are collected, nonlinear expressions do not occur (but see `C59_nonlinear_unchecked`) |
| `series.py`, `varf.py` | constructors, arithmetic, `tensorize`, `project`, `subdegree`, `to_cross`, `to_function`, `__call__`, `solve` (`Model/Solve.lean`) around a linear solver, `eigs` (`Model/Eigs.lean`) around an eigenvalue routine, the data of the pictures (`Model/Pictures.lean`) | matplotlib, the linear solvers and eigenvalue routines (LAPACK/ARPACK) |
| `quad.py` | `gauss_hermite` (numpy's rule is a parameter), `fourier`, `newton_cotes` (`Model/QuadConstructors.lean`); the Fourier rule; the Gaussian as measure and any exact rule; `Quad` objects: constructor, `project`, `discretize`, `integrate` (also `flat`), `mapped_nodes` (`Model/Pictures.lean`), `norm` (`Model/QuadNorm.lean`), `transform`, `eval`, `varf`, `varfd`, `discretize_op`, `tensorize_at` (`Model/QuadObject.lean`, `Model/VarfObject.lean`; the eigendecomposition of the covariance is a parameter, assumed exact for diagonal ones) | `hermegauss` itself, matplotlib (`plot`, `plot_hf`, `streamlines` return the data in `Model/Plot.lean`) |
| `compquad.py` | constructor, `integrate`, `transform`, `varf`, `project`, `==`, `varfd`, `discretize_op` (which raise; `Model/CompQuad.lean`) | |
| `equations.py` | all operators and `map_operator` (`Model/Equations.lean`), parameters as elements of a ring; `solve_gaussian` (`Model/SolveGaussian.lean`), over real smooth functions, with sympy's `solve` as a parameter | the numerical `coeff_noise`, printing |
| examples | | all |

## 5. Findings: where the code does not do what its name says

Each line names the theorem that proves it (in `Hermipy.Props`), or says "read" if it was found by reading and is outside the model.

* `hermite_eval` with degree 0 writes one past the end: `C24_degree_zero_undefined`; therefore `integrate` with a Hermite direction is
  undefined: `C31_hermite_undefined`.
* `varfd` specialised to dense matrices computes `-1 * k` in unsigned arithmetic in Fourier directions: `C41_fourier_false`.
* `varfd` in a Fourier direction throws when the partner of a sine is not in the set: `C40_throws`; a sparse zero matrix returns where the
  dense one throws: `C38_varfd_fourier_false`.
* `to_boost_mat` reads with `i * n_rows + j` (`C44_boost_wrong`, `C44_boost_reads_outside`); `to_mat` uses strides as sizes
  (`C44_to_mat_shape`); slices are read wrongly (`C44_slice_false`), non-contiguous columns throw (`C44_not_contiguous`).
* Degree recovery: undefined for dimension 5 (`C10_dim5_undefined`), wraps for rectangles (`C10_rectangle_dim8`), fails for the cross at
  degree 0 and for cross_nc at degree 1 (`C10_cross_zero`, `C10_cross_nc_one`), returns a degree for a number which is no size
  (`C11_cross_invents`). Outside the range of the search the cross is undefined (`C11_cross_range`) and
  for the other sets the process exits with code 0 (`C11_exit_code`), in particular for all degrees above 250 (`C11_high_degree_false`).
  So series with other numbers of coefficients end the Python process (`C11_series_exits`), and so do `Quad.transform`, `Quad.varf`, `Quad.varfd` and `Quad.discretize_op` for
  degrees above 250, after the computation (`C68_high_degree_false`, `C70_high_degree_false`, `C71_high_degree_false`,
  `C72_high_degree_false`; undefined for the cross: `C68_high_degree_cross`).
  In five and more directions no series or forms of triangles and cubes can be made at all (`C11_dim5_series`, `C68_dim5_undefined`),
  and `project`, `inner` and `tensorize` are undefined for them (`C15_C21_dim5_undefined`; in up to four directions they end the process for numbers
  of coefficients which are not sizes: `C15_C21_exits`).
* `Cube::s_index` of the zero multi-index is undefined: `C09_zero_undefined`.
* cross_nc listings are not nested: `C07_cross_nc_not_prefix`; `Varf.subdegree` does not exclude them: `C56_cross_nc_false`.
* `Series.project` on several directions drops a factor which couples one of them to another direction: `C73_false` (from `C51_false`).
* `Quad.tensorize` cannot multiply quadratures with a common direction: `Position.tensorize` drops this direction, and the search for it raises (`C74_shared`). Different numbers of nodes are rejected too (`C74_points`).
* `Varf.solve` with `use_gmres` needs `preconditioner='ilu'`, otherwise a name is unbound (`C75_gmres_false`); `remove_vec` cannot be used for vectors whose factor is a sum or whose position is correlated, since their norm is computed by `tensorize` (`C75_remove_false`); the factor of the right-hand side is not compared (`C75_factor_false`).
* `op(0)` returns an operator and not a function (`C76_call_zero`). Composition does not compare directions; the result has the directions of the argument unless it is zero (`C76_call_dirs`). `op * op`, `op + c` for a number `c ≠ 0`, `map(0)`, and products with expressions when the directions are not sorted raise (`C76_rejects`).
* Projection of the rectangle to directions other than the first loses entries: `C20_rectangle_loses`.
* `varf` truncates products that leave the doubled set: `C35_cross_false`, `C35_rectangle_false`; diagonal entries become negative for a
  positive function: `C35_C36_fourier_false`; the form of a product is not the tensor product except for the cube: `C37_false`.
* Fourier parity is not checked when the direction has no nodes: `C32_empty_direction`. Discretising with no direction is undefined:
  `C45_no_direction`. Transform with the crosses at degree 0 is undefined: `C26_cross_zero_undefined`.
* CSR input with repeated entries keeps the last one: `C43_repeated_false`, `C43_csr_last`. A matrix without rows: `C43_empty_undefined`.
* `intern_function`: two bodies with the same hash share the compiled function (`C46_collision`); after a failed compilation the stale
  state is used (`C46_compile_failure`).
* `cache`: `f(-1)` and `f(-2)` share a file (`C48_false`, `C47_false`); so do `0.5` and `2.0**60` (`C48_float_false`), `1` and `2**61`
  (`C48_modulus_false`), `1`, `True`, `1.0`, `"1"`, and `None`, `""` (`C48_types_false`), arrays of different shape or type
  (`C48_arrays_false`: `core.project` of a vector with one entry and of a one-by-one matrix), positional and keyword arguments
  (`C48_keyword_false`), all preconditioners in `Varf.solve` (`C48_extend_false`), functions of the same `__name__`
  (`C47_names_false`). `np.int64` arguments raise (`C47_unsupported_false`). Floats of integral value come back as integers.
* `log_stats` leaves the indent too large after an exception: `C62_false`.
* `Position.weight` normalises with the full dimension: `C54_false`, `C54_mixture`. `Position.tensorize` of one unsorted argument returns it
  unsorted: `C52_single_false`; types of cancelled directions are not compared: `C52_types_unchecked`. `Position(mean=…)` alone raises: `C63_mean_only_false`.
* `Function.project` silently drops factors that couple kept and dropped variables: `C51_false`. `Function(expr=Function, dirs=…)` ignores
  `dirs`: `C89_copy_false`.
* `Series.to_cross` drops the factor: `C57_false`; degree 0 raises `IndexError`: `C57_zero_throws`. `Series.to_function` multiplies by the
  standard deviation instead of dividing, ignores the factor, and uses Hermite polynomials in Fourier directions: `C58_variance_false`,
  `C58_factor_false`, `C58_fourier_false`. `Series + Series` of different degrees is accepted if one has a single coefficient: `C60_false`.
* `Quad.integrate` of a function with fewer directions than the quadrature: directly, the coordinates are taken by position, so `x_1` is
  evaluated at `x_0` (`C64_coordinate_false`); tensorized, the weights of the other directions are left out (`C64_weights_false`).
  Tensorizing raises if the factor is a sum: `C64_sum_factor`.
* `Quad.eval` ignores the types of the series (`C65_types_ignored`, `C65_types_false`); it multiplies matrices entrywise (`*` for `dot`), so
  for correlated directions it raises, even for series with the position of the quadrature: `C65_correlated_false`.
* `Quad.transform` guards the division by the factor with `1e-300` where it is zero; with `tensorize` this is done per block, so a zero of
  two blocks gives `1e600` instead of `1e300`: `C68_zero_false`.
* `Varf.tensorize` keys the matrices by sets of directions and checks nothing: of two forms with the same directions the last one wins, the
  directions vanish from the position, and the matrix is taken for one of another degree: `C69_overlap_false`. `Varf.project` uses `self.dirs`,
  which does not exist: `C69_project_false`.
* `Quad.varf` for the crosses in two directions: 0 directly and 2/3 with `tensorize`, for the same function: `C70_cross_false`.
* `Quad.varfd` ignores directions which do not belong to the quadrature, where the derivative is 0: `C71_outside_false`. With the triangle and
  two Fourier directions it raises, but with `tensorize` it returns the right form: `C71_triangle`.
* `Quad.fourier(n, position=p)` overwrites the dimension of `p` by one; for two or more directions `integrate` of the result writes past the
  ends of buffers (`C78_fourier_position_false`). The constructors raise for different numbers of points in the directions
  (`C78_fourier_points_false`, `C78_gauss_points_false`). `newton_cotes` is the trapezoidal rule, although its weights are called
  `weights_simpson` (`C78_newton_cotes_partial`).
* `Quad.integrate(flat=True)` on mixtures of Hermite and Fourier directions is too large by √(2π) for each Fourier direction (`C79_flat`), since
  `Position.weight` normalises with the full dimension; with `tensorize` it is not, so the result depends on the setting (`C79_mixture_false`).
  `Quad.norm` raises for a `Function` or a string, and returns `None` for other `n` than 1 and 2 (`C79_norm_rejects`).
* `Operator.split` accepts nonlinear expressions: `C59_nonlinear_unchecked`.
* `==` broadcasts arrays: a series with one coefficient compares equal to a longer one with this coefficient throughout (`C81_broadcast_false`),
  a quadrature with one point to one with two copies of it (`C81_quad_false`). `Series.__eq__` does not compare index sets
  (`C81_index_set_false`), `Varf.__eq__` does not compare factors (`C81_factor_false`). With other differences in size `==` raises instead of
  returning `False` (`C81_series_degrees`, `C81_varf_degrees`, `C81_quad_points`).
* `CompQuad.transform` raises, since `Series` has no `__radd__` (`C82_transform_false`); `CompQuad.project` raises, since it has an unbound
  name (`C82_project_false`); `CompQuad.varfd` and `discretize_op` raise, since the arguments do not fit (`C82_varfd_false`, `C82_discretize_op_false`); `CompQuad.__eq__` ignores the weights (`C82_eq_false`).
* An unknown name of an index set terminates the Python process in `core.tensorize`, `project`, `inner`, `transform`, `varf`, `varfd`
  (`C84_unknown_exits`, `C85_unknown_exits`), but raises in `core.iterator_*` (`C84_iterators_unknown`). `core.iterator_index` raises for
  three of the five sets (`C84_iterator_index_false`). `core.tensorize` of vectors with `sparse=True` raises (`C84_sparse_vectors_false`),
  and so does a list, unlike a dictionary, with both dense and sparse matrices (`C84_list_mixed`); numbers, vectors and matrices are not mixed in dictionaries either (`C84_dict_mixed`). `core.integrate` without `do_fourier` is
  undefined behaviour (`C85_integrate_default_undefined`).
* `Quad.plot`, `Quad.plot_hf` and `Quad.streamlines` raise an exception if the factor of the quadrature is a sum or couples the directions, although the factor is not used for the axes, which are found by projecting the quadrature (`C87_sum_false`, `C87_coupled_false`). `plot_hf` fails for multi-indices of odd sum if there is a Fourier direction (`C87_hf_odd_false`). The argument `factor` raises an exception if it is an array (`C87_factor_false`).
* `Quad.streamlines` never works for functions and expressions: their values are assigned to `fx`, `fy`, but `sx`, `sy` are used (`C88_functions_false`). It projects on the directions 0 and 1 instead of the directions of the quadrature (`C88_directions_false`). For a constant stream function the levels are not increasing (`C88_levels_false`).
* `Function` accepts negative directions (`dirs=[-1]` with a variable `v`, after which the C code still has `x4`) and repeated ones (`C89_negative_accepted`, `C89_repeated_accepted`). `ccode` has `\b` only before the name of the variable: `x10` becomes `v[1]0` (`C89_ccode_false`). In `sanitize` the threshold `1e-14` has no effect, as `limit_denominator` already maps anything below `5e-9` to zero (`C89_sanitize_threshold`, `C89_sanitize_drops`).
* `solve_gaussian` takes the first root without looking at it: for backward operators it returns zero (`C90_backward`, `C90_langevin_backward`), for potentials that are not confining a function that is imaginary or grows without bound (`C90_unstable`), in each case without its message. With `θ m ≠ 0` it raises an `IndexError` (or `TypeError`), although the stationary distribution is normal (`C90_offset`, `C90_mv_white`).
* The comparison of results with cached results ignores the places and the shape of sparse matrices (`C92_sparse_false`), broadcasts shapes (`C92_shape_false`), and raises for arrays with three or more axes (`C92_axes_false`). The results of `spla.eigs` are written to files that are never read (`C93_uncached`).
* `Varf.solve` with `remove0` appends the eigenvector without conjugating it: for antisymmetric forms and an eigenvalue that is not zero the system is singular (`C93_remove0_singular`).
* `Varf.plot` takes the entries of sparse matrices with their signs, on a logarithmic scale of colours, unlike those of dense matrices (`C94_sparse_false`); its lines, "only for cube and triangle" according to a comment, are also right for the rectangle and the cross, but not for `cross_nc` (`C94_lines_false`). `Series.plot` returns an unbound variable in three directions or more (`C94_series_false`). `Quad.mapped_nodes` looks for variables `x_0`, `x_1`, which do not exist, so that the C code does not compile and a null pointer is called (`C94_nodes_false`).
* `Position` takes the factor of the covariance matrix from `la.eig` (position.py:103), which, unlike `eigh`, does not promise orthogonal eigenvectors for repeated eigenvalues. With other eigenvectors of the same eigenspace all integrals and transforms belong to a different covariance matrix (`C96_rule`, `C96_repeated_false`).
* Found by reading only: the class `boost_mat` exports `size1` as `&spmat::size1`; the overloads of `project` for one direction are never
  called; `tensorize` passes `list(frozenset)` as directions, which is ascending for directions below 8 only, e.g. `{8, 1}` becomes
  `[8, 1]`; in `Varf.solve`, `if remove0 or remove_vec:` fails for arrays; the substitution `\bx{}` in `ccode` has no
  trailing boundary (`x1` inside `x10`); `Quad.varfd` uses the eigenvalues in the order of `la.eig`.
* `varf` drops coefficients below an absolute threshold, so that operators with small constants lose terms or vanish: `C80_small_false`
  (`10⁻¹³ ∂²` becomes the zero matrix), `C80_fokker_planck_false` (of the Fokker-Planck operator only the first derivative is left, and the
  matrix is not diagonal); `C80_kept` and `C80_mapped_kept` say which terms are left, `C98_op` bounds the effect in general.

## 6. Axioms per theorem

Generated by `tools/gen_axioms.py` from the output of `#print axioms` in `lean/Verif/Axioms.lean`.

<!-- axioms start -->

* **none** (1): `C84_iterator_index_false`
* **propext** (2): `C43_empty_undefined`, `C82_discretize_op_false`
* **propext, Quot.sound** (7): `C15_increasing_dirs`, `C43_triples`, `C44_not_contiguous`, `C62_indent`, `C62_no_exception_partial`, `C62_indent_iff`, `C77_gle_rejects`
* **propext, Classical.choice, Quot.sound** (564): `C01_triangle_listing`, `C02_cube_listing`, `C03_rectangle_listing`, `C04_cross_listing`, `C05_cross_nc_listing`, `C06_size`, `C06_closed_forms`, `C07_prefix`, `C07_cross_nc_not_prefix`, `C08_triangle_index`, `C09_cube_index_partial`, `C09_zero_undefined`, `C10_degree_of_size_partial`, `C10_degree_of_size_general_partial`, `C10_dim5_undefined`, `C10_rectangle_dim8`, `C10_cross_zero`, `C10_cross_nc_one`, `C11_sound_partial`, `C11_cross_invents`, `C11_exit_code`, `C11_high_degree_false`, `C11_cross_range`, `C11_series_exits`, `C11_dim5_series`, `C12_lookup`, `C12_keys`, `C13_protocol`, `C14_grid`, `C14_conditions`, `C15_project_vec`, `usable_up_to_dim_four`, `C15_C21_dim5_undefined`, `C15_C21_exits`, `C16_project_mat`, `C16_dense_and_sparse`, `C17_tensorize_vec`, `C17_vec_id`, `C18_tensorize_mats`, `C18_dense_and_sparse`, `C18_mat_id`, `C19_vec_order`, `C19_mat_order`, `C20_project_tensorize_partial`, `C20_project_tensorize_mat_partial`, `C20_vec_id_partial`, `C20_rectangle_loses`, `C21_inner`, `C22_dot`, `C22_tensor`, `C22_project`, `C23_inner_symm`, `C24_hermite_eval_partial`, `C24_degree_zero_undefined`, `C24_degree_zero_slack`, `C25_orthonormal`, `C25_computed`, `C26_forward`, `C26_backward`, `C26_cross_zero_undefined`, `C27_transform_product`, `C28_round_trip`, `C28_exact_rule`, `C29_forward_linear`, `C29_backward_linear`, `C29_adjoint`, `C30_fourier_rule`, `C30_transform_exact`, `C30_sharp`, `C31_integrate_partial`, `C31_hermite_undefined`, `C32_transform_odd`, `C32_triple_odd`, `C32_varf_odd`, `C32_empty_direction`, `C33_hermite_table`, `C33_hermite_linearise`, `C34_fourier_table`, `C34_fourier_linearise`, `C35_entries_partial`, `C35_exact`, `C35_error`, `C35_closed`, `C35_cross_zero`, `C35_cross_false`, `C35_C36_fourier_false`, `C35_rectangle_false`, `C36_symmetric`, `C36_nonneg_partial`, `C37_varf_product_partial`, `C37_false`, `C38_varf`, `C38_varfd_hermite`, `C38_varfd_fourier_partial`, `C38_varfd_fourier_false`, `C39_entries`, `C39_form`, `C40_entries_partial`, `C40_form`, `C40_returns_iff`, `C40_closed`, `C40_throws`, `C41_hermite`, `C41_fourier_partial`, `C41_fourier_false`, `C42_commute`, `C42_commute_mixed`, `C43_dense_sparse_dense`, `C43_to_csr`, `C43_from_csr_partial`, `C43_csr_last`, `C43_repeated_false`, `C43_sparse_csr_sparse`, `C43_csr_sparse_csr_partial`, `C44_to_boost_mat_partial`, `C44_to_bmat_partial`, `C44_to_mat_partial`, `C44_boost_reads_outside`, `C44_boost_wrong`, `C44_to_mat_shape`, `C44_slice_false`, `C44_to_numpy`, `C44_square_round_trip`, `C45_discretize`, `C45_transform`, `C45_no_direction`, `C46_function_partial`, `C46_collision`, `C46_collision_value`, `C46_compile_failure`, `C47_separated_partial`, `C47_partial`, `C47_false`, `C47_names_false`, `C47_unsupported_false`, `C48_partial`, `C48_names`, `C48_false`, `C48_modulus_false`, `C48_float_false`, `C48_types_false`, `C48_arrays_false`, `C48_keyword_false`, `C48_extend_false`, `C49_finest_common`, `C49_order_irrelevant`, `C49_symm`, `C50_split`, `C50_order`, `C50_legacy`, `C51_project_partial`, `C51_single`, `C51_raises_iff`, `C51_blocks`, `C51_false`, `C52_tensorize_partial`, `C52_rejects`, `C52_single`, `C52_single_false`, `C52_types_unchecked`, `C53_project`, `C53_project_rejects`, `C53_project_tensorize`, `C53_project_tensorize_eq`, `C53_project_tensorize_close`, `C53_tensorize_project`, `C54_weight`, `C54_product_partial`, `C54_mixture`, `C54_false`, `C55_subdegree`, `C55_refused`, `C55_compose`, `C56_subdegree_partial`, `C56_too_high`, `C56_cross_nc_false`, `C57_series_partial`, `C57_series_factor_one`, `C57_series_factor_lost`, `C57_false`, `C57_varf`, `C57_rejects`, `C57_zero_throws`, `C58_value`, `C58_to_function_partial`, `C58_variance_false`, `C58_factor_false`, `C58_fourier_false`, `C59_split`, `C59_raises`, `C59_nonlinear_unchecked`, `C60_series_scalar`, `C60_series_partial`, `C60_series_rejects`, `C60_degrees`, `C60_false`, `C60_varf_scalar`, `C60_varf_partial`, `C60_varf_rejects`, `C60_varf_degrees`, `C61_call`, `C61_rejects`, `C62_log`, `C62_false`, `C63_init_partial`, `C63_rejects`, `C63_mean_only_false`, `C64_integrate_partial`, `C64_direct`, `C64_sum_factor`, `C64_coordinate_false`, `C64_weights_false`, `C65_eval_partial`, `C65_types_ignored`, `C65_types_false`, `C65_correlated_false`, `C66_transform`, `C66_round_trip`, `C67_tensorize`, `C67_disjoint`, `C67_full`, `C67_scalar`, `C67_rejects`, `C68_tensorize_partial`, `C68_direct`, `C68_sum_factor`, `C68_zero_false`, `C68_high_degree_false`, `C68_high_degree_cross`, `C68_dim5_undefined`, `C69_tensorize_partial`, `C69_single`, `C69_refused`, `C69_overlap_false`, `C69_project_false`, `C70_direct_partial`, `C70_tensorize_partial`, `C70_agree_partial`, `C70_sum_factor`, `C70_cross_false`, `C70_high_degree_false`, `C71_direct_partial`, `C71_tensorize_partial`, `C71_agree_partial`, `C71_filter`, `C71_throws`, `C71_sum_factor`, `C71_outside_false`, `C71_triangle`, `C71_high_degree_false`, `C72_direct_partial`, `C72_tensorize_partial`, `C72_directions`, `C72_order`, `C72_high_degree_false`, `C73_project_partial`, `C73_coef_partial`, `C73_mean_partial`, `C73_rejects`, `C73_product`, `C73_false`, `C74_tensorize_partial`, `C74_integral_partial`, `C74_integrate_partial`, `C74_project_partial`, `C74_reassemble_partial`, `C74_points`, `C74_shared`, `C74_empty`, `C75_solve`, `C75_inverse`, `C75_remove_partial`, `C75_remove_symmetric_partial`, `C75_remove0_partial`, `C75_constrained_partial`, `C75_rejects`, `C75_remove_rejects`, `C75_float`, `C75_gmres_false`, `C75_remove_false`, `C75_factor_false`, `C76_add`, `C76_sub`, `C76_neg`, `C76_mul`, `C76_compose`, `C76_apply`, `C76_apply_expr`, `C76_map`, `C76_map_order`, `C76_map_compose`, `C76_map_value`, `C76_add_zero`, `C76_rejects`, `C76_call_zero`, `C76_call_dirs`, `C76_discretize_partial`, `C76_discretize_tensorize_partial`, `C76_discretize_rejects`, `C76_smooth_partial`, `C77_forward_backward`, `C77_map_operator`, `C77_fokker_planck_kernel`, `C77_fokker_planck_mass`, `C77_fokker_planck_adjoint`, `C77_overdamped_reversible`, `C77_fokker_planck_schrodinger`, `C77_schrodinger_symmetric`, `C77_mv_white`, `C77_line_sde`, `C77_mv_mass`, `C77_mv_kernel`, `C77_mv_sde`, `C77_langevin_forward`, `C77_langevin_adjoint`, `C77_langevin_backward`, `C77_langevin_sde`, `C77_harmonic_mass`, `C77_harmonic_kernel`, `C77_harmonic_sde`, `C77_gle_none`, `C77_gle_one`, `C77_gle_two`, `C77_gle_sde`, `C78_gauss_hermite_partial`, `C78_fourier_partial`, `C78_fourier_position`, `C78_fourier_position_false`, `C78_fourier_points_false`, `C78_gauss_points_false`, `C78_newton_cotes_partial`, `C78_newton_cotes_error_partial`, `C78_newton_cotes_box`, `C78_newton_cotes_rejects`, `C79_flat`, `C79_flat_fourier`, `C79_flat_gauss`, `C79_flat_tensorize_partial`, `C79_mixture_false`, `C79_norm_values`, `C79_norm_expr`, `C79_norm_rejects`, `C79_parseval`, `C79_series`, `C79_series_mean`, `C80_spectrum_partial`, `C80_gauss_hermite_partial`, `C80_fokker_planck_partial`, `C80_fourier_partial`, `C80_kept`, `C80_fourier_kept`, `C80_vanish`, `C80_small_false`, `C80_mapped_kept`, `C80_fokker_planck_kept`, `C80_fokker_planck_false`, `C81_position`, `C81_reflexive`, `C81_series_symmetric`, `C81_varf_symmetric`, `C81_quad_symmetric`, `C81_series_partial`, `C81_series_coef`, `C81_series_value`, `C81_series_degrees`, `C81_varf_partial`, `C81_varf_degrees`, `C81_quad_partial`, `C81_quad_points`, `C81_broadcast_false`, `C81_index_set_false`, `C81_transitive_false`, `C81_factor_false`, `C81_quad_false`, `C82_init`, `C82_init_rejects`, `C82_integrate`, `C82_integrate_function`, `C82_exact`, `C82_gauss`, `C82_varf`, `C82_varf_function`, `C82_varf_rejects`, `C82_transform_false`, `C82_project_false`, `C82_eq_partial`, `C82_eq_quad_partial`, `C82_eq_false`, `C82_varfd_false`, `C83_exists_unique`, `C83_unique`, `C83_nodes`, `C83_weights`, `C83_iff`, `C83_symmetric`, `C83_sharp`, `C83_bounds`, `C84_to_cpp_array`, `C84_to_cpp_array_rejects`, `C84_empty_rejected`, `C84_iterators`, `C84_iterator_index_partial`, `C84_iterators_unknown`, `C84_tensorize_numbers`, `C84_tensorize_vectors`, `C84_sparse_vectors_false`, `C84_tensorize_matrices`, `C84_shortcut`, `C84_list_vectors`, `C84_list_matrices`, `C84_list_sparse`, `C84_list_mixed`, `C84_dict_mixed`, `C84_tensorize_rejects`, `C84_single_vector`, `C84_single_matrix`, `C84_project_vector`, `C84_project_matrix_partial`, `C84_inner`, `C84_unknown_exits`, `C85_default`, `C85_calls`, `C85_forward`, `C85_backward`, `C85_integrate_default_undefined`, `C85_varf`, `C85_varfd_hermite_partial`, `C85_varfd_fourier_partial`, `C85_chain`, `C85_rejects`, `C85_unknown_exits`, `C86_gauss`, `C86_gauss_smooth`, `C86_fourier`, `C86_fourier_series`, `C87_function_curve`, `C87_function_surface`, `C87_series_curve`, `C87_series_surface`, `C87_hf_curve`, `C87_hf_surface`, `C87_turning`, `C87_sum_false`, `C87_coupled_false`, `C87_dimension`, `C87_hf_odd_false`, `C87_factor_false`, `C88_streams`, `C88_differences`, `C88_accuracy`, `C88_levels`, `C88_levels_false`, `C88_functions_false`, `C88_directions_false`, `C89_value`, `C89_dirs`, `C89_dim`, `C89_free`, `C89_rejects`, `C89_rejects_dependence`, `C89_arithmetic`, `C89_arithmetic_rejects`, `C89_operand`, `C89_as_xyz`, `C89_round_trip`, `C89_negative_accepted`, `C89_repeated_accepted`, `C89_copy_false`, `C89_ccode`, `C89_ccode_false`, `C89_sanitize_error`, `C89_sanitize_recovers`, `C89_sanitize_idempotent`, `C89_sanitize_threshold`, `C89_sanitize_drops`, `C90_normal`, `C90_kernel`, `C90_density`, `C90_unique`, `C90_found`, `C90_offset`, `C90_backward`, `C90_fokker_planck`, `C90_mv_white`, `C90_mv`, `C90_harmonic`, `C90_langevin`, `C90_langevin_backward`, `C90_solver`, `C90_unstable`, `C91_exact`, `C91_binary`, `C91_size`, `C91_hermite_eval`, `C91_forward`, `C91_backward`, `C91_integrate`, `C91_integrate_bounded`, `C91_inner`, `C91_tensorize`, `C92_detects_partial`, `C92_accepts`, `C92_fresh`, `C92_transparent_partial`, `C92_stale_partial`, `C92_confirms`, `C92_quiet`, `C92_sparse_false`, `C92_axes_false`, `C92_shape_false`, `C93_eigs`, `C93_real`, `C93_nearly_real`, `C93_remove0`, `C93_remove0_singular`, `C93_remove0_rejects`, `C93_uncached`, `C94_dense`, `C94_sparse_partial`, `C94_sparse_false`, `C94_lines`, `C94_lines_degree`, `C94_lines_cross`, `C94_lines_false`, `C94_series_line`, `C94_series_plane`, `C94_series_false`, `C94_nodes_text`, `C94_nodes_false`, `C95_exact`, `C95_binary`, `C95_hermite_table`, `C95_fourier_table`, `C95_varf`, `C95_quadrature`, `C95_symmetric`, `C96_density`, `C96_weight`, `C96_orthonormal`, `C96_factor_partial`, `C96_discretize`, `C96_tensorize`, `C96_gauss_hermite_partial`, `C96_rule`, `C96_covariance`, `C96_transform_partial`, `C96_repeated_false`, `C97_exact`, `C97_hermite`, `C97_fourier`, `C97_dense`, `C97_form_hermite`, `C97_form_fourier`, `C97_discretize`, `C97_values`, `C98_varf`, `C98_small`, `C98_varfd`, `C98_op`, `C98_tensorize`, `C98_varfd_tensorize`, `C98_op_tensorize`, `C98_mapped`, `C98_comp`

<!-- axioms end -->

## 7. Seeded bugs

`seeded/run.py` copies the project to a scratch directory, edits one model definition, rebuilds and appends to `seeded/LOG.jsonl` which
theorems fail (or depend on a failing lemma). A proof which fails is replaced by `sorry` in the scratch copy and the build is repeated, so
that all theorems are checked (`"checked": "all"`). A broken proof shows that a theorem depends on the edited text, not by itself that its
statement has become false; whether the theorems still proved have to be tightened is judged by reading them.

The first 237 entries come from an earlier version of the script, which stopped at the first broken module: for them,
`expected_but_still_proved` contains theorems that were not checked. Four of them (marked `invalid`) are edits that do not compile; they
were repeated with other edits. Entries with `repeats` are repetitions of earlier ones.
