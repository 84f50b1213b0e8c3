{"id": "C01", "title": "Triangle listing is exactly the simplex", "statement": "iterator_list_indices(dim, degree, 'triangle') returns, for dim >= 1, every multi-index of length dim whose entries sum to at most degree, each exactly once, starting with the zero multi-index; the enumeration always terminates and never touches memory out of bounds.", "quantifier": "all dim >= 1 and all degree >= 0", "why_tests_cant": "Tests compare a few (dim, degree) pairs; a skipped or repeated multi-index at a carry boundary in another dimension would go unseen.", "anchors": ["cpp/src/hermite/iterators.cpp: Triangle_iterator::s_increment, s_list, Triangle_iterator::Triangle_iterator", "hermipy/core.py: iterator_list_indices"]}
{"id": "C02", "title": "Cube listing is exactly the full tensor grid of degrees", "statement": "iterator_list_indices(dim, degree, 'cube') returns, for dim >= 1, every multi-index of length dim with all entries at most degree, each exactly once, and terminates.", "quantifier": "all dim >= 1 and all degree >= 0", "why_tests_cant": "The increment has a case split on the position of the last maximum; only finitely many pairs can be run.", "anchors": ["cpp/src/hermite/iterators.cpp: Cube_iterator::s_increment, s_list", "hermipy/core.py: iterator_list_indices"]}
{"id": "C03", "title": "Rectangle listing is exactly the anisotropic box", "statement": "iterator_list_indices(dim, degree, 'rectangle') returns, for dim >= 1, every multi-index with first entry at most degree and every other entry at most degree/2, each exactly once, and terminates.", "quantifier": "all dim >= 1 and all degree >= 0", "why_tests_cant": "The order skips coordinates by parity; parity/dimension interactions are unbounded.", "anchors": ["cpp/src/hermite/iterators.cpp: Rectangle_iterator::s_increment, s_list", "hermipy/core.py: iterator_list_indices"]}
{"id": "C04", "title": "Cross listing is exactly the hyperbolic cross", "statement": "iterator_list_indices(dim, degree, 'cross') returns, for dim >= 1, every multi-index m with prod_i max(1, m_i) <= degree, each exactly once, and terminates. (Degree 0 would be the empty set; the code must give a defined answer.)", "quantifier": "all dim >= 1 and all degree >= 0", "why_tests_cant": "The enumeration walks ordered factorisations; correctness depends on the divisors of every integer up to degree.", "anchors": ["cpp/src/hermite/iterators.cpp: Cross_iterator::s_increment, s_list", "hermipy/core.py: iterator_list_indices"]}
{"id": "C05", "title": "Cross_nc listing is the hyperbolic cross in graded order", "statement": "iterator_list_indices(dim, degree, 'cross_nc') returns the same set as 'cross', each element exactly once, ordered as in the triangle listing, and never takes the internal 'should not happen' process exit.", "quantifier": "all dim >= 1 and all degree >= 0 for which the 32-bit products do not overflow", "why_tests_cant": "The abort branch is reachable only if a global counting argument fails; a test cannot rule it out for all pairs.", "anchors": ["cpp/src/hermite/iterators.cpp: Cross_iterator_nc::s_increment, s_list", "hermipy/core.py: iterator_list_indices"]}
{"id": "C06", "title": "iterator_size is the number of listed multi-indices", "statement": "For each of the five index sets, iterator_size(dim, degree) equals the number of rows of iterator_list_indices(dim, degree) whenever that number fits in 32 bits.", "quantifier": "all index sets, all dim >= 1, all degree >= 0", "why_tests_cant": "Sizes are computed by closed formulas (binomials, powers, products) unrelated to the enumeration code.", "anchors": ["cpp/src/hermite/iterators.cpp: *_iterator::s_size", "hermipy/core.py: iterator_size"]}
{"id": "C07", "title": "Listings are nested prefixes (degree-consistent ordering)", "statement": "For triangle, cube, rectangle and cross, the listing for degree d is a prefix of the listing for every d' >= d; hence taking the first iterator_size(d) coefficients is the restriction to degree d.", "quantifier": "all dim >= 1 and all pairs d <= d', for the four 'consistent' index sets; cross_nc must not be relied on", "why_tests_cant": "A statement about all pairs of degrees; a single swap beyond the tested degree would silently corrupt subdegree.", "anchors": ["cpp/src/hermite/iterators.cpp: s_increment of the four iterators", "hermipy/series.py: Series.subdegree", "hermipy/varf.py: Varf.subdegree"]}
{"id": "C08", "title": "Triangle index is the inverse of the listing", "statement": "iterator_index(m, 'triangle') is the position of m in the triangle listing, for every listing that contains m.", "quantifier": "all dim >= 1, all degrees, all m in the set", "why_tests_cant": "The closed formula is a combinatorial number system; equality with the enumeration is an identity over all m.", "anchors": ["cpp/src/hermite/iterators.cpp: Triangle_iterator::s_index", "hermipy/core.py: iterator_index"]}
{"id": "C09", "title": "Cube index is the inverse of the listing", "statement": "iterator_index(m, 'cube') is the position of m in the cube listing, for every listing that contains m, without relying on undefined behaviour.", "quantifier": "all dim >= 1, all degrees, all m in the set (including the zero multi-index)", "why_tests_cant": "At the zero multi-index the result depends on an out-of-range double-to-unsigned conversion, which a test on one platform cannot settle.", "anchors": ["cpp/src/hermite/iterators.cpp: Cube_iterator::s_index", "hermipy/core.py: iterator_index"]}
{"id": "C10", "title": "Degree recovery is the inverse of size", "statement": "iterator_get_degree(dim, iterator_size(dim, degree)) == degree for every index set.", "quantifier": "all index sets, dim >= 1, degree <= 250 (the hard-wired search bound)", "why_tests_cant": "The bisection evaluates the size at 250, which overflows 32 bits from dimension 5 on, whatever the actual degree.", "anchors": ["cpp/src/hermite/iterators.cpp: *_iterator::s_get_degree", "cpp/src/hermite/lib.cpp: pos_bissect", "hermipy/series.py: Series.__init__", "hermipy/varf.py: Varf.__init__"]}
{"id": "C11", "title": "Degree recovery never invents a degree", "statement": "If iterator_get_degree(dim, n) returns d then iterator_size(dim, d) == n; otherwise it stops. The search terminates for every n.", "quantifier": "all index sets, all dim, all n", "why_tests_cant": "Termination and soundness for every integer n, including those that are not a valid size.", "anchors": ["cpp/src/hermite/lib.cpp: pos_bissect", "cpp/src/hermite/iterators.cpp: *_iterator::s_get_degree"]}
{"id": "C12", "title": "Multi-index lookup is exact", "statement": "Looking up a multi-index in an iterator returns k if and only if it is the k-th listed one; membership is true exactly for listed ones; looking up a non-member throws instead of returning a position. No two multi-indices share a textual key.", "quantifier": "all index sets, dims, degrees and all multi-indices", "why_tests_cant": "Needs injectivity of the textual encoding over all integer vectors.", "anchors": ["cpp/src/hermite/lib.cpp: hash_print", "cpp/src/hermite/iterators.cpp: Multi_index_iterator::index", "cpp/src/hermite/iterators.hpp: has"]}
{"id": "C13", "title": "Iteration protocol visits the list in order under any history", "statement": "For any sequence of increment and reset calls on an iterator, the current multi-index is the list entry at the current position, the position never passes the end, full becomes true exactly on an increment attempted at the last entry, and reset returns to the first entry.", "quantifier": "all histories of increment/reset calls", "why_tests_cant": "A statement about all call sequences.", "anchors": ["cpp/src/hermite/iterators.cpp: Multi_index_iterator::increment", "cpp/src/hermite/iterators.hpp: reset, isFull"]}
{"id": "C14", "title": "Grid listing is the C-order enumeration", "statement": "list_cube_indices(bounds) enumerates all multi-indices below the bounds exactly once, last coordinate fastest, and the grid index of the k-th is k; provided dim >= 1 and all bounds >= 1.", "quantifier": "all bound vectors of positive integers", "why_tests_cant": "Quadrature sums and numpy reshapes rely on this order for every grid shape.", "anchors": ["cpp/src/hermite/iterators.cpp: Grid_iterator::increment, index, list"]}
{"id": "C15", "title": "Projection of a coefficient vector keeps exactly the aligned coefficients", "statement": "project(v, dim, dirs)[k] is the coefficient of v at the multi-index that equals the k-th sub-multi-index along dirs and is zero elsewhere (zero if that multi-index is not in the big set); no exception, for strictly increasing dirs.", "quantifier": "all index sets, dims, degrees, vectors, all strictly increasing dirs", "why_tests_cant": "Index arithmetic over every dimension and subset of directions.", "anchors": ["cpp/src/hermite/project.cpp: project(vec)", "hermipy/core.py: project"]}
{"id": "C16", "title": "Projection of a matrix is the aligned submatrix", "statement": "project(M, dim, dirs)[k, l] is the entry of M at the two embedded multi-indices, dense and sparse alike.", "quantifier": "all index sets, dims, degrees, matrices, strictly increasing dirs", "why_tests_cant": "Index arithmetic over every dimension and subset of directions.", "anchors": ["cpp/src/hermite/project.cpp: project(mat)", "hermipy/core.py: project"]}
{"id": "C17", "title": "Tensorization of vectors is the entrywise product", "statement": "tensorize of vectors along a partition of the directions has, at every multi-index m of the set, the product over blocks of the block vectors at the restriction of m; no exception.", "quantifier": "all index sets, dims, degrees, partitions of the directions, vectors", "why_tests_cant": "Quantifies over all partitions and all vectors.", "anchors": ["cpp/src/hermite/tensorize.cpp: tensorize, tensorize_vecs_dirs", "hermipy/core.py: tensorize"]}
{"id": "C18", "title": "Tensorization of matrices is the entrywise product", "statement": "tensorize of matrices along a partition of the directions has at (m, n) the product over blocks of the block matrices at the restrictions of m and n.", "quantifier": "all index sets, dims, degrees, partitions into increasing blocks, matrices (with any sparsity)", "why_tests_cant": "The code merges blocks pairwise through intermediate truncated sets; losing an entry in an intermediate set is input dependent.", "anchors": ["cpp/src/hermite/tensorize.cpp: tensorize_dirs, tensorize(spmat), _tensorize_mats_dirs", "hermipy/core.py: tensorize"]}
{"id": "C19", "title": "Tensorization does not depend on the order of the factors", "statement": "Permuting the (factor, directions) pairs passed to tensorize does not change the result.", "quantifier": "all permutations of all inputs", "why_tests_cant": "Python passes frozenset-keyed dictionaries, so the order is an accident of the run.", "anchors": ["cpp/src/hermite/tensorize.cpp: _tensorize_mats_dirs", "hermipy/core.py: tensorize"]}
{"id": "C20", "title": "Projection undoes tensorization", "statement": "Projecting the tensor product of blocks on one block returns that block times the product of the zero-index entries of the others (so projection after tensorize_id is the identity).", "quantifier": "all index sets, dims, degrees, partitions, vectors and matrices", "why_tests_cant": "Round-trip law over all shapes.", "anchors": ["cpp/src/hermite/project.cpp", "cpp/src/hermite/tensorize.cpp: tensorize_vec_id, tensorize_mat_id", "hermipy/series.py: Series.project"]}
{"id": "C21", "title": "Contraction (inner) is the sum over the shared directions", "statement": "inner(s1, s2, dirs1, dirs2)[m] is the sum over multi-indices k of the shared directions of s1 at (m,k) restricted to dirs1 times s2 at (m,k) restricted to dirs2, terms outside the coefficient sets counting as zero; the free directions come out sorted.", "quantifier": "all index sets, degrees, increasing direction lists, vectors", "why_tests_cant": "The merge of two direction lists has many interleavings.", "anchors": ["cpp/src/hermite/inner.cpp: inner", "hermipy/core.py: inner", "hermipy/series.py: Series.tensorize"]}
{"id": "C22", "title": "Contraction over all directions is the dot product; over none the tensor product", "statement": "inner with equal direction lists returns the Euclidean product of the coefficient vectors; inner with disjoint lists returns the tensor product; inner with the constant series 1 on some directions is projection on the others.", "quantifier": "all index sets, degrees, vectors", "why_tests_cant": "Three separate code paths must agree with one formula.", "anchors": ["cpp/src/hermite/inner.cpp: inner"]}
{"id": "C23", "title": "Contraction is symmetric", "statement": "inner(s1, s2, d1, d2) == inner(s2, s1, d2, d1) (so Series multiplication commutes).", "quantifier": "all index sets, increasing direction lists, vectors", "why_tests_cant": "Symmetry over all interleavings of directions.", "anchors": ["cpp/src/hermite/inner.cpp: inner", "hermipy/series.py: Series.__mul__"]}
{"id": "C24", "title": "Hermite recursion evaluates the normalised Hermite polynomials", "statement": "For every point x and degree n, the evaluation fills entry i with He_i(x)/sqrt(i!) for all i <= n and writes nothing outside the n+1 entries.", "quantifier": "all real x, all degrees >= 0", "why_tests_cant": "An identity in x and in the degree; a stray write past the buffer is invisible to output-comparing tests.", "anchors": ["cpp/src/hermite/hermite.cpp: hermite_eval", "cpp/src/hermite/hermite.hpp: REC_A, REC_B"]}
{"id": "C25", "title": "The normalised Hermite polynomials are orthonormal for the Gaussian", "statement": "The functions used as Hermite basis satisfy: the Gaussian mean of h_i h_j is 1 if i = j and 0 otherwise.", "quantifier": "all i, j", "why_tests_cant": "An integral identity for all pairs of degrees.", "anchors": ["cpp/src/hermite/hermite.cpp: hermite_eval", "hermipy/quad.py: transform"]}
{"id": "C26", "title": "Transform is the quadrature of f times the basis function", "statement": "transform(degree, f, nodes, weights, forward=True)[j] is the weighted sum over the tensor grid of f times the product basis function of the j-th multi-index; backward evaluates the series at each grid point.", "quantifier": "all index sets, dims, grids, weights, function values, mixed Hermite/Fourier directions", "why_tests_cant": "All grid shapes and index sets.", "anchors": ["cpp/src/hermite/transform.cpp: _transform", "hermipy/core.py: transform"]}
{"id": "C27", "title": "Transform of a product function is the tensor product of transforms", "statement": "If f is a product of functions of the blocks of a partition of the directions then transform(f) equals tensorize of the block transforms: tensorize=True and tensorize=False give the same series.", "quantifier": "all index sets, grids, weights, block functions and partitions", "why_tests_cant": "Two entirely different code paths; equality over all inputs.", "anchors": ["cpp/src/hermite/transform.cpp: _transform", "cpp/src/hermite/tensorize.cpp: tensorize", "hermipy/quad.py: Quad.tensorize_at, transform"]}
{"id": "C28", "title": "Forward transform inverts evaluation", "statement": "If the 1d rules integrate products of basis functions exactly (discrete orthonormality), then transform(eval(series)) == series.", "quantifier": "all index sets, dims, degrees, coefficient vectors, admissible rules", "why_tests_cant": "Round-trip law over all coefficient vectors.", "anchors": ["cpp/src/hermite/transform.cpp: _transform", "hermipy/quad.py: transform, eval"]}
{"id": "C29", "title": "Forward and backward transforms are adjoint and linear", "statement": "Both transforms are linear in the data, and sum_j transform(f)_j c_j equals the weighted grid sum of f times eval(c).", "quantifier": "all index sets, grids, weights, f, c", "why_tests_cant": "Law over all inputs.", "anchors": ["cpp/src/hermite/transform.cpp: _transform"]}
{"id": "C30", "title": "The Fourier rule is discretely orthonormal", "statement": "The equispaced rule built by Quad.fourier with n_points > degree makes the trigonometric basis of (even) degree discretely orthonormal, so transforms on it are exact.", "quantifier": "all even degrees and all n_points > degree", "why_tests_cant": "Root-of-unity identity for all sizes.", "anchors": ["hermipy/quad.py: Quad.fourier", "cpp/src/hermite/transform.cpp: _transform (Fourier branch)"]}
{"id": "C31", "title": "Integrate is the plain weighted sum", "statement": "integrate(f, nodes, weights) returns the sum over the grid of weights times f, in Hermite and in Fourier directions alike, without touching memory outside its buffers.", "quantifier": "all grids, weights, f, mixed directions", "why_tests_cant": "The normalisation constants must cancel for every mixture, and the memory-safety part is invisible to value tests.", "anchors": ["cpp/src/hermite/transform.cpp: integrate", "cpp/src/hermite/hermite.cpp: hermite_eval", "hermipy/core.py: integrate"]}
{"id": "C32", "title": "Odd degrees are refused for Fourier directions", "statement": "A transform or triple-product computation with a Fourier direction and an odd degree never returns a value.", "quantifier": "all odd degrees, all inputs with a Fourier direction", "why_tests_cant": "For all inputs.", "anchors": ["cpp/src/hermite/transform.cpp: _transform", "cpp/src/hermite/varf.cpp: triple_products_fourier"]}
{"id": "C33", "title": "Hermite triple products linearise products", "statement": "The table T computed for degree n satisfies h_i(x) h_j(x) = sum_{k<=2n} T[k][i][j] h_k(x) for every x and all i, j <= n; equivalently T[k][i][j] is the Gaussian mean of h_k h_i h_j. All accesses are in bounds.", "quantifier": "all n, i, j <= n, all real x", "why_tests_cant": "Identity for all degrees.", "anchors": ["cpp/src/hermite/varf.cpp: triple_products_1d"]}
{"id": "C34", "title": "Fourier triple products linearise products", "statement": "The table computed for even degree n satisfies phi_i(x) phi_j(x) = sum_{k<=2n} T[k][i][j] phi_k(x) for every x, for the normalised trigonometric basis. All accesses are in bounds.", "quantifier": "all even n, i, j <= n, all real x", "why_tests_cant": "Identity for all wave numbers, with sign cases.", "anchors": ["cpp/src/hermite/varf.cpp: triple_products_fourier"]}
{"id": "C35", "title": "The variational form is the quadrature of f h_I h_J", "statement": "varf(degree, f, nodes, weights)[I, J] equals the grid sum of w f h_I h_J (up to the documented drop threshold on coefficients of f), for every index set offered.", "quantifier": "all index sets, dims, degrees, grids, f, all I, J", "why_tests_cant": "The code expands f in a truncated set of twice the degree; whether the truncation loses terms depends on the shape of the set.", "anchors": ["cpp/src/hermite/varf.cpp: varf", "hermipy/quad.py: Quad.varf"]}
{"id": "C36", "title": "The variational matrix is symmetric, and positive semi-definite for non-negative f", "statement": "varf returns a symmetric matrix for every f; and for f >= 0 with non-negative weights its quadratic form is non-negative (exact arithmetic, no threshold).", "quantifier": "all f, grids, degrees", "why_tests_cant": "For all f.", "anchors": ["cpp/src/hermite/varf.cpp: varf"]}
{"id": "C37", "title": "Variational form of a product is the tensor product of variational forms", "statement": "For f a product over blocks of directions, varf(f) equals tensorize of the block matrices (tensorize=True and False agree), for every index set.", "quantifier": "all index sets, grids, partitions, block functions", "why_tests_cant": "Two code paths; equality for all inputs and index sets.", "anchors": ["cpp/src/hermite/varf.cpp: varf", "cpp/src/hermite/tensorize.cpp", "hermipy/quad.py: Quad.tensorize_at, varf"]}
{"id": "C38", "title": "Sparse and dense variational code paths agree", "statement": "varf, varfd, tensorize and project give the same matrix entries whether the sparse or the dense variant is requested.", "quantifier": "all inputs", "why_tests_cant": "Two instantiations of the templates plus conversions.", "anchors": ["cpp/src/hermite/varf.cpp: varf<spmat>, varf<boost_mat>, varfd", "cpp/src/hermite/tensorize.cpp", "cpp/src/hermite/sparse.cpp"]}
{"id": "C39", "title": "Derivative form (Hermite) is the form against the derivative", "statement": "varfd applied to the matrix of f gives at (I, J) the grid sum of w f h_I d(h_J)/dx_dir: entry (I, J) is sqrt(J_dir) times the entry at (I, J - e_dir), zero when J_dir = 0.", "quantifier": "all index sets, degrees, directions, matrices", "why_tests_cant": "Entry relation for all sets; requires downward closedness.", "anchors": ["cpp/src/hermite/varf.cpp: varfd", "hermipy/quad.py: Quad.varfd"]}
{"id": "C40", "title": "Derivative form (Fourier) is the form against the derivative", "statement": "In a Fourier direction, varfd gives at (I, J) the entry of the matrix at the partner of J (sine/cosine of the same wave number) times plus or minus the wave number, and returns for every index set offered.", "quantifier": "all index sets, even degrees, directions, matrices", "why_tests_cant": "Whether the partner index belongs to the set depends on the shape of the set.", "anchors": ["cpp/src/hermite/varf.cpp: varfd"]}
{"id": "C41", "title": "Dense-specialised derivative form agrees with the generic one", "statement": "The varfd variant specialised to nested vectors computes the same entries as the generic variant.", "quantifier": "all matrices, degrees, directions, Hermite or Fourier", "why_tests_cant": "The sign is computed in unsigned arithmetic, which is only visible for particular parities.", "anchors": ["cpp/src/hermite/varf.cpp: varfd<mat>"]}
{"id": "C42", "title": "Derivatives in different directions commute", "statement": "Applying varfd along d1 then d2 equals applying it along d2 then d1.", "quantifier": "all index sets, degrees, directions, matrices (Hermite); different directions of any kind, when the set contains with a sine the cosine of the same wave number", "why_tests_cant": "Law over all inputs.", "anchors": ["cpp/src/hermite/varf.cpp: varfd", "hermipy/quad.py: Quad.varfd"]}
{"id": "C43", "title": "Sparse conversions round-trip", "statement": "Dense to sparse to dense, and sparse to (row, col, value) triples to CSR to sparse, preserve every entry; a CSR with repeated column entries has the meaning scipy gives it (sum).", "quantifier": "all matrices, all CSR arrays", "why_tests_cant": "All sparsity patterns.", "anchors": ["cpp/src/hermite/sparse.cpp: row_col_val, to_spmat, full", "hermipy/core.py: convert_to_cpp_sparse, to_csr"]}
{"id": "C44", "title": "Numpy matrices are read in correctly", "statement": "Every conversion of a 2d numpy array to a C++ matrix yields the matrix with the same shape and entries, for every shape and stride, without reading outside the array.", "quantifier": "all shapes and strides", "why_tests_cant": "Tests only use square contiguous arrays.", "anchors": ["cpp/src/hermite/python/converters.cpp: to_boost_mat, to_mat, to_bmat"]}
{"id": "C45", "title": "Discretization samples f at the mapped grid points in grid order", "statement": "discretize(f, nodes, mean, factor)[k] is f evaluated at mean + factor * (k-th grid point in C order), the order in which transform reads it.", "quantifier": "all grids, means, factors, functions", "why_tests_cant": "All grid shapes.", "anchors": ["cpp/src/hermite/discretize.cpp: map_point, discretize", "hermipy/core.py: discretize"]}
{"id": "C46", "title": "Compiled-function cache returns the function asked for", "statement": "For any history of discretize calls and any initial content of the temporary directory produced by such calls, the function evaluated is the one whose body was passed; a body that fails to compile is reported.", "quantifier": "all histories of calls, all bodies", "why_tests_cant": "State survives across processes; collisions and failures depend on history.", "anchors": ["cpp/src/hermite/discretize.cpp: intern_function"]}
{"id": "C47", "title": "The result cache is transparent", "statement": "For any history of calls to cached functions, a call returns the value the underlying function returns on those arguments.", "quantifier": "all histories of calls, all settings, all arguments", "why_tests_cant": "Depends on the history of files in the cache directory and on key collisions.", "anchors": ["hermipy/cache.py: cache, gen_hash"]}
{"id": "C48", "title": "Cache keys separate different calls", "statement": "Two calls of the same function with different arguments never share a cache key (assuming md5 does not collide).", "quantifier": "all pairs of argument lists", "why_tests_cant": "Injectivity over all arguments.", "anchors": ["hermipy/cache.py: gen_hash"]}
{"id": "C49", "title": "finest_common returns the finest common coarsening", "statement": "For two partitions of the same finite set, finest_common returns the finest partition coarser than both, whichever element is picked at each step, and terminates.", "quantifier": "all pairs of partitions, all pick orders", "why_tests_cant": "Python set order varies between runs; all pick orders must agree.", "anchors": ["hermipy/lib.py: finest_common", "hermipy/quad.py: Quad.tensorize_at"]}
{"id": "C50", "title": "Function.split factorises a term over disjoint variable groups", "statement": "For every product term, the groups returned multiply back to the term, have pairwise disjoint variable sets covering the given directions, each factor depends only on its own group's variables, and groups are as fine as possible.", "quantifier": "all products of factors, all iteration orders", "why_tests_cant": "All overlap patterns of variable sets.", "anchors": ["hermipy/function.py: Function.split"]}
{"id": "C51", "title": "Function.project either keeps all of its variables' factors or raises", "statement": "project(dirs) of a one-term function returns the product of exactly the factors depending on dirs (constants going to the lowest direction) and raises if some factor couples dirs to other variables; the projections over the split blocks multiply back to the function.", "quantifier": "all one-term functions and all dirs", "why_tests_cant": "All overlap patterns.", "anchors": ["hermipy/function.py: Function.project"]}
{"id": "C52", "title": "Position.tensorize keeps exactly the directions appearing once", "statement": "Tensorizing positions returns the sorted list of the directions that appear exactly once, with their means, covariances and types; a direction appearing three times, or twice with different mean or variance, is rejected.", "quantifier": "all lists of positions", "why_tests_cant": "All overlap patterns.", "anchors": ["hermipy/position.py: Position.tensorize"]}
{"id": "C53", "title": "Position project and tensorize are inverse", "statement": "Projecting a (diagonal) position on the blocks of a partition of its directions and tensorizing the results gives the position back; projecting a tensor product on the directions of one factor gives that factor.", "quantifier": "all diagonal positions and partitions", "why_tests_cant": "All partitions.", "anchors": ["hermipy/position.py: Position.project, tensorize"]}
{"id": "C54", "title": "The Gaussian weight is the product of the one-dimensional weights", "statement": "Position.weight() equals the product of Position.weights(), for every mixture of Hermite and Fourier directions.", "quantifier": "all diagonal positions", "why_tests_cant": "All mixtures and dimensions.", "anchors": ["hermipy/position.py: weight, weights"]}
{"id": "C55", "title": "Series.subdegree restricts or extends by zero", "statement": "series.subdegree(d) has, at every multi-index of the degree-d set, the original coefficient if it exists and 0 otherwise; index sets without nested ordering are refused.", "quantifier": "all index sets, dims, degrees d, d', coefficient vectors", "why_tests_cant": "Relies on the nested-prefix property for all degrees.", "anchors": ["hermipy/series.py: Series.subdegree"]}
{"id": "C56", "title": "Varf.subdegree is the principal submatrix", "statement": "varf.subdegree(d) has at (I, J) the original entry, for every I, J of the degree-d set, or raises.", "quantifier": "all index sets, dims, degrees, matrices", "why_tests_cant": "Relies on the nested-prefix property for all degrees and index sets.", "anchors": ["hermipy/varf.py: Varf.subdegree"]}
{"id": "C57", "title": "to_cross keeps the coefficients of the hyperbolic cross", "statement": "Series.to_cross(d) and Varf.to_cross(d) of a triangle object have at every cross multi-index the original coefficient, and represent the same function (same factor).", "quantifier": "all dims, degrees, coefficients", "why_tests_cant": "All multi-indices; inclusion of sets.", "anchors": ["hermipy/series.py: Series.to_cross", "hermipy/varf.py: Varf.to_cross", "hermipy/lib.py: cross_in_triangle"]}
{"id": "C58", "title": "to_function agrees with evaluation", "statement": "series.to_function() evaluated at x is the value the series represents at x (as computed by Quad.eval on a grid containing x).", "quantifier": "all series, positions, points", "why_tests_cant": "Only centred unit-variance positions hide scaling mistakes.", "anchors": ["hermipy/series.py: Series.to_function", "hermipy/quad.py: Quad.eval"]}
{"id": "C59", "title": "Operator.split returns the coefficients of the differential operator", "statement": "For L = sum_a c_a d^a with |a| <= 5, split() returns exactly {a: c_a : c_a != 0}; with a term of order > 5 it raises.", "quantifier": "all linear operators with polynomially many terms in any number of variables", "why_tests_cant": "All operators.", "anchors": ["hermipy/operator.py: Operator.split"]}
{"id": "C60", "title": "Series and Varf arithmetic is coefficientwise and type-checked", "statement": "Sums, differences and scalar multiples act entrywise, and combining objects with different positions, index sets, factors or degrees is rejected.", "quantifier": "all pairs of objects", "why_tests_cant": "All combinations.", "anchors": ["hermipy/series.py: Series.__add__, __sub__, __mul__", "hermipy/varf.py: Varf.__add__, __sub__, __mul__"]}
{"id": "C61", "title": "Applying a Varf is the matrix-vector product in the shared ordering", "statement": "varf(series) has as I-th coefficient the sum over J of varf[I, J] series[J]; operands with another position, index set or degree are rejected.", "quantifier": "all varfs, series", "why_tests_cant": "All matrices.", "anchors": ["hermipy/varf.py: Varf.__call__", "cpp/src/hermite/templates.hpp"]}
{"id": "C62", "title": "Timing instrumentation keeps its nesting level", "statement": "After any history of decorated calls, nested or failing, the log indentation is what it was before the outermost call.", "quantifier": "all call trees with arbitrary exceptions", "why_tests_cant": "All histories.", "anchors": ["hermipy/stats.py: log_stats"]}
{"id": "C63", "title": "The constructor of positions accepts consistent arguments and fills in the defaults", "statement": "Position(dim, mean, cov, dirs, types) returns a position exactly when what is given is consistent with one dimension; what is not given defaults to mean zero, unit covariance, the first directions and Hermite type.", "quantifier": "all combinations of arguments given or left out", "why_tests_cant": "All combinations of optional arguments and sizes.", "anchors": ["hermipy/position.py: Position.__init__"]}
{"id": "C64", "title": "Tensorized integration is integration", "statement": "Quad.integrate(f, tensorize=True) equals Quad.integrate(f, tensorize=False), and both are the sum over the grid of the weight times the value of f at the point which the node stands for.", "quantifier": "all functions (sums of products), all diagonal positions, all factors, all orders of iteration over sets", "why_tests_cant": "Depends on how variables are shared among factors of the function and of the weight; all patterns and orders.", "anchors": ["hermipy/quad.py: Quad.tensorize_at, Quad.integrate, Quad.discretize, Quad.project"]}
{"id": "C65", "title": "Quad.eval computes the values of a series on the grid", "statement": "quad.eval(series)[i] is the value which the series represents at the point the i-th node of the quadrature stands for, also if the two have different means and covariances.", "quantifier": "all series and quadratures with the same directions", "why_tests_cant": "All positions, degrees, index sets and coefficients; same position hides scaling mistakes.", "anchors": ["hermipy/quad.py: Quad.eval, Quad.discretize"]}
{"id": "C66", "title": "Quad.transform inverts Quad.eval", "statement": "If the rule integrates products of basis functions exactly, quad.transform(quad.eval(series), degree) returns the series; so does the transform of every function with the same values on the grid.", "quantifier": "all series, orthonormal rules, factors without zeros on the grid", "why_tests_cant": "All degrees, index sets, dimensions and factors.", "anchors": ["hermipy/quad.py: Quad.transform, Quad.eval", "cpp/src/hermite/transform.cpp: transform"]}
{"id": "C67", "title": "Products of series contract the common directions", "statement": "Series.tensorize of two series lives on the directions that exactly one of them has, with the means, variances and types it had there. The coefficient at m is the sum over the multi-indices on the common directions of the products of the coefficients; the factor is the product of the factors without their common part. Series of different degree, index set or common factor are rejected.", "quantifier": "all pairs of series, all patterns of shared directions", "why_tests_cant": "All dimensions, sets of directions, degrees and coefficients.", "anchors": ["hermipy/series.py: Series.tensorize", "hermipy/core.py: inner", "hermipy/position.py: Position.tensorize"]}
{"id": "C68", "title": "Tensorized transforms are transforms", "statement": "Quad.transform(f, degree, tensorize=True) equals Quad.transform(f, degree, tensorize=False), and the coefficient at m is the quadrature of f / factor times the basis function of m.", "quantifier": "all functions (sums of products), diagonal positions, factors, degrees, index sets, all orders of iteration over sets", "why_tests_cant": "Depends on how variables are shared among factors of the function and of the weight; all patterns and orders.", "anchors": ["hermipy/quad.py: Quad.tensorize_at, Quad.transform, Quad.project", "hermipy/series.py: Series.tensorize"]}
{"id": "C69", "title": "Products of forms have products of entries", "statement": "Varf.tensorize of forms on disjoint directions lives on all their directions, in increasing order, with the same means, variances and types; the factor is the product of the factors, and the entry at (I, J) is the product of the entries at the parts of I and J. Forms of different degree or index set are rejected.", "quantifier": "all lists of forms with disjoint directions, all degrees, index sets and matrices", "why_tests_cant": "All dimensions, interleavings of directions, degrees and matrices.", "anchors": ["hermipy/varf.py: Varf.tensorize", "hermipy/core.py: tensorize", "hermipy/position.py: Position.tensorize", "cpp/src/hermite/tensorize.cpp: tensorize"]}
{"id": "C70", "title": "Tensorized variational forms are variational forms", "statement": "Quad.varf(f, degree, tensorize=True) equals Quad.varf(f, degree, tensorize=False), and the entry at (I, J) is the quadrature of f times the basis functions of I and J.", "quantifier": "all functions (sums of products), diagonal positions, factors, degrees, index sets, all orders of iteration over sets", "why_tests_cant": "Depends on how variables are shared among factors of the function and of the weight, and on the index set; all patterns and orders.", "anchors": ["hermipy/quad.py: Quad.tensorize_at, Quad.varf, Quad.project", "hermipy/varf.py: Varf.tensorize", "cpp/src/hermite/varf.cpp: varf"]}
{"id": "C71", "title": "Derivative forms compose to forms of higher derivatives", "statement": "Quad.varfd(f, degree, directions) has at (I, J) the quadrature of f times the basis function of I times the derivative of the basis function of J with respect to the coordinates in the list, each as often as it is listed; with and without tensorize.", "quantifier": "all functions, diagonal positions, lists of directions (with repetitions), degrees, index sets", "why_tests_cant": "All lists of derivatives, mixed Hermite and Fourier directions and means and variances; tensorized, the derivatives have to reach the right block.", "anchors": ["hermipy/quad.py: Quad.varfd, Quad.tensorize_at", "cpp/src/hermite/varf.cpp: varfd"]}
{"id": "C72", "title": "Discretised operators apply the operator to the basis functions", "statement": "Quad.discretize_op(op, degree) has at (I, J) the quadrature of the basis function of I times op applied to the basis function of J. Operators in other directions or of order above 5 are rejected.", "quantifier": "all linear differential operators of order at most 5, diagonal positions, degrees, index sets", "why_tests_cant": "All operators, with terms which add up or cancel; with and without tensorize.", "anchors": ["hermipy/quad.py: Quad.discretize_op, Quad.varfd", "hermipy/operator.py: Operator.split"]}
{"id": "C73", "title": "Projecting a series integrates the other directions out", "statement": "Series.project keeps mean, variance and type of the chosen directions, the part of the factor which depends on them, and the coefficients at the multi-indices which vanish in the other directions: the result is the mean of the series over the other directions. Projecting a product of series back gives the first series times the zeroth coefficient of the second. Missing directions, correlated positions and factors which couple the directions to others are rejected.", "quantifier": "all series with a product as factor, sets of directions, index sets and degrees", "why_tests_cant": "All series and directions; the interplay of three projections (coefficients, position, factor) with different conventions for directions.", "anchors": ["hermipy/series.py: Series.project", "hermipy/core.py: project", "hermipy/position.py: Position.project", "hermipy/function.py: Function.project"]}
{"id": "C74", "title": "Products of quadratures integrate products", "statement": "Quad.tensorize of quadratures on disjoint directions lives on all their directions, in increasing order, with their nodes, weights, means, variances and types; its factor is the product of the factors. Integrating a product of functions, one for each argument, over it gives the product of the integrals. Projecting on the directions of an argument gives its nodes, weights and position back, and tensorizing the projections of a quadrature on uncoupled blocks gives this quadrature. Common directions and different numbers of nodes are rejected.", "quantifier": "all lists of quadratures, interleavings of directions, nodes, weights and factors", "why_tests_cant": "All dimensions, interleavings, nodes and functions; a permuted node list goes unnoticed when all directions use the same rule.", "anchors": ["hermipy/quad.py: Quad.tensorize, Quad.project, Quad.integrate", "hermipy/position.py: Position.tensorize"]}
{"id": "C75", "title": "Solving inverts the form", "statement": "Varf.solve(f) is a series in the space of the form which the form maps to the coefficients of f, and solve(A(v)) has the coefficients of v, if the matrix is nonsingular. With remove_vec=v (or remove0) and a kernel spanned by v, the result is orthogonal to v and the form maps it to f without its component along v; for symmetric forms and f orthogonal to v, it solves the system. Other positions, index sets and degrees are rejected.", "quantifier": "all forms with nonsingular matrix or one-dimensional kernel, all series, index sets and degrees; dense and sparse", "why_tests_cant": "All matrices and right-hand sides; the bordered system is nonsingular only for vectors which are not orthogonal to the cokernel.", "anchors": ["hermipy/varf.py: Varf.solve, Varf.__call__", "hermipy/series.py: Series.__mul__, Series.__truediv__, Series.__float__"]}
{"id": "C76", "title": "The arithmetic of operators", "statement": "The sum, difference and negative of operators, and the product with a function, act as such on functions; calling an operator with an operator is the composition, with a function the application; Operator.map(g) acts as u -> L(g u) / g and does not raise the order. Quad.discretize_op of an operator, for a quadrature with the factor g, has at (I, J) the quadrature of the basis function of I times L(g phi_J) / g.", "quantifier": "all linear differential operators with coefficients in a differential ring (for instance, smooth functions), all factors without zeros, degrees and index sets", "why_tests_cant": "All operators, orders and factors; composition and map follow the rule of Leibniz in several variables.", "anchors": ["hermipy/operator.py: Operator.__add__, Operator.__call__, Operator.map", "hermipy/quad.py: Quad.discretize_op"]}
{"id": "C77", "title": "The equations are those of their diffusion processes", "statement": "The operators in equations.py are the forward (Fokker-Planck) or backward operators of the diffusion processes they are named after. The forward ones conserve mass; each has the Gibbs density of its process as stationary or invariant density (for the McKean-Vlasov equations with other noise: at gamma = 1); Fokker_Planck_1d is the adjoint of Overdamped.backward, Langevin.forward that of Langevin.backward. map_operator(L, f, g) acts as u -> L(g u) / g; with g = exp(-beta V / 2), the Fokker-Planck operator becomes the symmetric Schroedinger operator with the potential beta V'^2 / 4 - V'' / 2.", "quantifier": "all potentials and parameters, all smooth functions", "why_tests_cant": "Potentials are arbitrary functions; a sign error in one coefficient changes spectra but raises no error.", "anchors": ["hermipy/equations.py: map_operator, Fokker_Planck_1d, McKean_Vlasov_white, McKean_Vlasov, McKean_Vlasov_harmonic_noise, Overdamped, Langevin, Generalized_Langevin"]}
{"id": "C78", "title": "The constructors of quadratures build exact rules", "statement": "Quad.gauss_hermite builds a consistent object with the given position, whose integrate is the exact integral against the normal distribution for all polynomials of degree below 2n in each direction; Quad.fourier one that integrates waves with less than n periods between the bounds exactly over the box (up to the factor 2 pi / (r - l) per direction); Quad.newton_cotes is the trapezoidal rule for the function times the Gaussian density, with its quadratic error bound.", "quantifier": "all numbers of points, dimensions, directions, means, variances, bounds, and all polynomials, waves and smooth functions", "why_tests_cant": "The rules are exact for infinitely many functions; the scaling by mean, variance and bounds is spread over the constructors, Position and discretize.", "anchors": ["hermipy/quad.py: Quad.__init__, Quad.gauss_hermite, Quad.fourier, Quad.newton_cotes", "hermipy/lib.py: hermegauss_nd"]}
{"id": "C79", "title": "Flat integrals are without weight, and norms are those of the function", "statement": "Quad.integrate(f, flat=True) is the integral of f without the Gaussian weight: for quadratures made by gauss_hermite and f a polynomial of degree below 2n times the Gaussian density, exactly; for Fourier directions, it is the integral without flat; it does not depend on the setting tensorize. Quad.norm with n=2 is the root of the integral of the square, with n=1 the integral of the absolute value. The 2-norm of a Hermite series is the euclidean norm of its coefficients (Parseval), if its factor is one, and in the flat norm, if its factor is the root of the weight.", "quantifier": "all quadratures on diagonal positions, functions, arrays of values, series, index sets and degrees", "why_tests_cant": "All functions, dimensions and mixtures of directions; the normalisation of the weight only shows with mixed types of directions.", "anchors": ["hermipy/quad.py: Quad.integrate, Quad.norm, Quad.eval", "hermipy/position.py: Position.weight"]}
{"id": "C80", "title": "Discretised generators have the exact eigenvalues", "statement": "In the basis of its own position, the generator of an Ornstein-Uhlenbeck process (for Hermite directions) plus a Laplacian (for Fourier directions) is discretised by Quad.discretize_op to the diagonal matrix of its exact eigenvalues: minus the sum of rate times degree, or rate times squared wave number. In particular, Fokker_Planck_1d of a harmonic potential with the Gibbs density as factor yields -j / (beta v), and the Laplacian on the quadrature of Quad.fourier yields -sum kappa (2 pi k / (r - l))^2.", "quantifier": "all means, variances, rates, temperatures, bounds, dimensions up to 4, degrees up to 250, numbers of points above the degree, sparse and dense", "why_tests_cant": "The whole pipeline (constructors, map, varf, varfd, sums of matrices) has to be right for all degrees and positions at once.", "anchors": ["hermipy/quad.py: Quad.discretize_op, Quad.varf, Quad.varfd, Quad.gauss_hermite, Quad.fourier", "hermipy/equations.py: Fokker_Planck_1d", "hermipy/operator.py: Operator.map"]}
{"id": "C81", "title": "Comparison of objects", "statement": "Comparison of series, forms and quadratures is reflexive and symmetric. Two objects of the same size compare equal exactly if their positions compare equal, their factors are the same, and the euclidean norm of the difference of the coefficients (entries, nodes, weights) is less than 1e-10; then no coefficient differs by 1e-10, and the functions of the series differ at most by 1e-10 times the norm of the basis. Objects of different sizes do not compare equal.", "quantifier": "all positions, series, forms and quadratures", "why_tests_cant": "All pairs of objects; arrays of different shapes are broadcast, which shows only for arrays with a single entry.", "anchors": ["hermipy/series.py: Series.__eq__", "hermipy/varf.py: Varf.__eq__", "hermipy/quad.py: Quad.__eq__", "hermipy/position.py: Position.__eq__"]}
{"id": "C82", "title": "Weighted sums of quadratures", "statement": "CompQuad accepts a list of quadratures for the same position with as many weights. Its integral, transform and form are the weighted sums of those of the quadratures; if the weights sum to one, it is exact where all quadratures are, in particular for Gauss-Hermite quadratures with N or more points, for polynomials of degree below 2N. Two of them compare equal if quadratures and weights do.", "quantifier": "all lists of quadratures and weights, functions, degrees and index sets", "why_tests_cant": "All lists, weights and functions; the methods that raise are not reached by the tests.", "anchors": ["hermipy/compquad.py: CompQuad.__init__, CompQuad.__eq__, CompQuad.integrate, CompQuad.transform, CompQuad.varf, CompQuad.project"]}
{"id": "C83", "title": "The Gauss rule exists, is unique and is bounded", "statement": "For each number n of nodes there is exactly one rule with increasing nodes which is exact for polynomials of degree below 2n against exp(-x^2/2), as assumed of hermegauss; its nodes are the zeros of the n-th Hermite polynomial, its weights are sqrt(2 pi) n! / (n He_{n-1}(x))^2, positive and symmetric. No rule with n nodes is exact for degree 2n. The integral of a function by Quad.gauss_hermite lies between the bounds of the function.", "quantifier": "all numbers of nodes, all rules, all polynomials; all bounded functions", "why_tests_cant": "All n; that the assumption on the library can be met, and what it determines, is no matter of examples.", "anchors": ["hermipy/lib.py: hermegauss_nd", "hermipy/quad.py: Quad.gauss_hermite, Quad.integrate"]}
{"id": "C84", "title": "Tensor products, projections and index sets as called from Python", "statement": "The functions of core.py hand their arguments to the C++ functions for the index set with the given name, and back. core.tensorize of a dictionary of vectors or of dense and sparse matrices has the products as entries, is sparse exactly if asked for; a list means the keys 0, 1, ...; a single vector is extended by the constant and a matrix by the identity. core.project and core.inner give the projection and contraction of C15, C16, C21, and the iterator functions the sizes, degrees, lists and indices of the set. Other arguments and names raise an exception.", "quantifier": "all nested lists of numbers, vectors, dense and sparse matrices, index sets, names, dimensions, degrees and directions", "why_tests_cant": "All shapes, kinds and mixtures of arguments, among them those which no caller in the package uses; the process dies for an unknown name.", "anchors": ["hermipy/core.py: to_cpp_array, convert_to_cpp_*, tensorize, project, inner, iterator_get_degree, iterator_index, iterator_size, iterator_list_indices", "cpp/src/hermite/python/module.cpp: BOOST_PYTHON_MODULE"]}
{"id": "C85", "title": "Transforms and forms as called from Python", "statement": "core.integrate, core.transform and core.varf, called with a vector of values and matrices of nodes and weights, give the integral, the transform and the form of the C++ functions for the index set with the given name; without do_fourier all directions are of Hermite type. core.varf and core.varfd return the same entries for dense and sparse matrices, and varfd of varf is the quadrature against derivatives. Other arguments and names raise an exception.", "quantifier": "all arguments, index sets, names, degrees, grids, functions, dense and sparse matrices", "why_tests_cant": "All shapes of arguments, all grids and both kinds of matrices; the default arguments are never used by the package itself.", "anchors": ["hermipy/core.py: integrate, transform, varf, varfd, to_numpy, to_csr", "cpp/src/hermite/python/module.cpp: BOOST_PYTHON_MODULE"]}
{"id": "C86", "title": "Errors of quadratures", "statement": "The error of an integral by Quad.gauss_hermite with n points in each direction is at most twice the integral of any polynomial W of degree below 2n which bounds the distance of the function to a polynomial of degree below 2n; for a function of one variable with 2j < 2n derivatives, the last bounded by M, it is at most 2 M sigma^(2j) / (2^j j!). The error of Quad.fourier is bounded in the same way by trigonometric sums with less than n periods; for an absolutely convergent Fourier series it is at most 4 pi times the sum of the coefficients of the waves with n or more periods.", "quantifier": "all numbers of points, dimensions, means, variances, bounds and directions; all functions and approximating sums", "why_tests_cant": "All functions that are not integrated exactly; tests compare a few such integrals with a tolerance.", "anchors": ["hermipy/quad.py: Quad.gauss_hermite, Quad.fourier, Quad.integrate", "hermipy/lib.py: hermegauss_nd"]}
{"id": "C87", "title": "What plots show", "statement": "With axes given, Quad.plot of an expression, a function or a series draws, in one direction, at the coordinates of the nodes its values there (for series, times the argument factor), and in two directions at (x[i], y[j]) the value for these coordinates; the title has the least and the greatest of the values. Quad.plot_hf draws the basis function of the multi-index times the factor. The lines that bounds=True adds are at sqrt(4n+2) standard deviations from the mean, beyond which the Hermite function of degree n has no zeros and its absolute value decreases to zero.", "quantifier": "all quadratures with diagonal covariance, all functions, series, factors and multi-indices (with sum up to 250); all degrees for the lines", "why_tests_cant": "Tests cannot look at figures.", "anchors": ["hermipy/quad.py: Quad.plot, Quad.plot_hf, Quad.series"]}
{"id": "C88", "title": "Stream lines", "statement": "Quad.streamlines draws contours of the discrete line integral of u dy - v dx from the first node, which is zero there, has u times the step as differences in y, and -v times the step as differences in x if and only if the discrete divergence is zero; if the field has a stream function, it is this function up to a constant and an error of K times the sum of the squares of the steps. The ten levels are increasing and between the extremes.", "quantifier": "all quadratures, all pairs of series, functions or expressions, all factors; all grids and fields for the line integral", "why_tests_cant": "Tests cannot look at figures.", "anchors": ["hermipy/quad.py: Quad.streamlines"]}
{"id": "C89", "title": "Functions of the coordinates", "statement": "Whatever the order in which sympy's set of free symbols is iterated over, Function(expr) has the value of expr where x, y, z, w, v and x0, ..., x4 are read as coordinates; it accepts sorted, distinct directions 0 to 4 that contain those of the symbols, and rejects expressions that depend on another coordinate. Sums, products and quotients need equal directions, and have the values of the operations. as_xyz has the values with the other names and the constructor undoes it. ccode replaces the variable of each direction by the entry of the array at the place of the direction and nothing else. sanitize changes the value by at most 1/(2N) times the product of the other factors for each Float, recovers fractions with denominators up to N from close Floats, is idempotent, and drops only what is below 1e-14.", "quantifier": "all expressions (any type with sympy's operations), orders of iteration, directions and dimensions, all C code, all sums of products", "why_tests_cant": "Tests cannot go through all orders of iteration of a set, nor through all expressions.", "anchors": ["hermipy/function.py: Function.__init__, __add__, __mul__, __truediv__, as_xyz, ccode, sanitize"]}
{"id": "C90", "title": "Gaussian solutions", "statement": "If sympy's solve returns roots only, whatever solve_gaussian returns is in the kernel of the operator and the message is not printed. For the forward operator of any stable process with linear drift and constant diffusion (also a degenerate one), it is the normal density of the stationary distribution: real, positive, with integral one, and the same for every solver; if the noise reaches all directions and solve finds a root when there is one, it is returned. If the drift is not zero at the origin, the call raises. For a stable backward operator it returns zero without a message, or raises in one dimension. This covers Fokker_Planck_1d, McKean_Vlasov_white, McKean_Vlasov, McKean_Vlasov_harmonic_noise and Langevin with quadratic potentials, for all parameters.", "quantifier": "all operators, all solvers, one to three variables, all stable matrices, all positive semidefinite diffusions, all parameters of the equations", "why_tests_cant": "Tests run a few equations with numbers for parameters; they do not show that each root gives a density, or that it is unique.", "anchors": ["hermipy/equations.py: solve_gaussian, Fokker_Planck_1d, McKean_Vlasov_white, McKean_Vlasov, McKean_Vlasov_harmonic_noise, Langevin"]}
{"id": "C91", "title": "Rounding errors", "statement": "In floating-point arithmetic with unit roundoff u (without overflow and underflow), hermite_eval, transform, integrate, inner and tensorize return the numbers of the exact functions up to ((1 + u)^n - 1) times the sum of the absolute values of the terms, where n is the number of operations: 8 i for the Hermite polynomial of degree i, number of points plus operations of the basis function for a transform, number of points + 12 dim + 3 for an integral, number of contracted indices + 1 for inner, number of factors - 1 for an entry of a tensor product. For double and up to 2^26 operations the factor is below 2^-26.", "quantifier": "all arithmetics of the standard model, all grids, all index sets and degrees below 2^32, all input values", "why_tests_cant": "Tests compare with a fixed tolerance for a few functions; they do not bound the error for other degrees, grids and values.", "anchors": ["cpp/src/hermite/hermite.cpp: hermite_eval", "cpp/src/hermite/transform.cpp: transform, integrate", "cpp/src/hermite/inner.cpp: inner", "cpp/src/hermite/tensorize.cpp: tensorize"]}
{"id": "C92", "title": "Comparison with cached results", "statement": "A call of a cached function with cache=False compares the result with the file of the call: it returns the result if the file holds the same values (within 1e-10 divided by the number of entries) and raises ValueError if some entry differs by 1e-10 or more.", "quantifier": "all functions, arguments, settings, histories and files; numbers, vectors, matrices and sparse matrices of all sizes", "why_tests_cant": "The tests never call a function with a stale file, and never with cache=False after a change.", "anchors": ["hermipy/cache.py: gen_error, cache"]}
{"id": "C93", "title": "Eigenfunctions", "statement": "Varf.eigs returns the eigenvalues of the library routine together with as many series, which have the position, factor, index set and degree of the form and are eigenfunctions of the form; coefficients are real if the imaginary parts are below 1e-15, and then the eigenvalue is real up to rounding, and for a real eigenvalue the series is an exact eigenfunction and not zero. Varf.solve with remove0 removes the kernel found this way.", "quantifier": "all forms with real matrices of any index set, dimension and degree; all exact eigenvalue routines and linear solvers; real and complex eigenvectors", "why_tests_cant": "The tests call eigs for one operator and compare one eigenfunction.", "anchors": ["hermipy/varf.py: Varf.eigs, Varf.solve"]}
{"id": "C94", "title": "Pictures of forms and series", "statement": "Varf.plot shows every entry of the matrix above 1e-9, once, with its absolute value as colour, at the row and the column of the entry, for dense and for sparse forms; the number of lines before a row is the least degree whose index set contains the multi-index of the row. Series.plot shows, at each multi-index, the coefficient in one direction and its absolute value in two; Quad.mapped_nodes returns the coordinates of the nodes.", "quantifier": "all forms and series that the constructors accept, of any index set, dimension and degree", "why_tests_cant": "Nothing is drawn in the tests.", "anchors": ["hermipy/varf.py: Varf.plot", "hermipy/series.py: Series.plot", "hermipy/quad.py: Quad.mapped_nodes"]}
{"id": "C95", "title": "Rounding errors of variational forms", "statement": "In floating-point arithmetic with unit roundoff u (without overflow and underflow), the entry (k, i, j) of the table of Hermite triple products is right up to 19 min(i, j) operations, relative to the sum of the absolute values of its terms, and exactly zero where it should be; an entry of the Fourier table has a relative error of at most 16 operations. An entry of the matrix of varf is the quadrature of f phi_I phi_J, for the sets where this holds exactly, up to the rounding errors of all operations relative to the sum of the absolute values of the terms, plus 1e-12 times the norm of the coefficients (at least 1e-12) for the coefficients which are dropped; with Hermite directions the matrix is exactly symmetric.", "quantifier": "all arithmetics of the standard model, all grids, all index sets and degrees, all input values, all kinds of matrices", "why_tests_cant": "Tests compare with a fixed tolerance for a few functions; they do not bound the error for other degrees, grids and values.", "anchors": ["cpp/src/hermite/varf.cpp: triple_products_1d, triple_products_fourier, varf"]}
{"id": "C96", "title": "Quadratures for correlated normal distributions", "statement": "For a positive definite covariance matrix, also with correlations, Quad.gauss_hermite with n points per direction integrates polynomials of total degree below 2n exactly against the normal density with the given mean and covariance matrix; weight() is this density; transform gives the exact coefficients with respect to the Hermite polynomials of the decorrelated coordinates, for polynomials whose degree together with the degree of the transform is at most 2n. The matrix factor of the position is a root of the covariance matrix.", "quantifier": "all dimensions, all means and positive definite covariance matrices, all numbers of points, all polynomials, all index sets and degrees", "why_tests_cant": "A test uses a few matrices with distinct eigenvalues; what numpy.linalg.eig returns for repeated eigenvalues depends on the matrix and the library.", "anchors": ["hermipy/position.py: Position.__init__, weight", "hermipy/quad.py: Quad.gauss_hermite, discretize, integrate, transform"]}
{"id": "C97", "title": "Rounding errors of derivative forms and of discretised functions", "statement": "In floating-point arithmetic with unit roundoff u (without overflow and underflow), an entry of the matrix which varfd returns is the exact factor times the entry from which it is computed up to two rounding errors, and exactly zero where the derivative of the basis function is zero; varf followed by varfd gives the quadrature of f phi_I d phi_J up to the error of varf times the factor and two rounding errors (in a Fourier direction for sets which contain with each sine its cosine). discretize calls the function at points which are the mapped grid points up to dim + 1 rounding errors relative to the sum of the absolute values of the terms, and its values are right up to the errors of the function and their Lipschitz constants times the errors of the points.", "quantifier": "all arithmetics of the standard model, all grids, index sets, degrees and directions, all matrices, all affine maps, all functions", "why_tests_cant": "Tests compare with a fixed tolerance for a few functions; they do not bound the error for other degrees, grids and values.", "anchors": ["cpp/src/hermite/varf.cpp: varfd", "cpp/src/hermite/discretize.cpp: map_point, discretize"]}
{"id": "C98", "title": "Forms and operators when small coefficients are dropped", "statement": "varf drops the coefficients of the function which are below the tolerance 1e-12 max(1, norm of the coefficients). Whatever is dropped, Quad.varf, Quad.varfd and Quad.discretize_op (for index sets which represent products; first without tensorize) return the quadrature of the function times the basis functions, with derivatives or with the operator, up to the tolerance times the sum of the means of phi_m phi_I phi_J in absolute value, times the factors of the derivatives, summed over the derivatives which occur in the operator. If all coefficients are below 1e-12, the form is zero. For a quadrature with a factor g, the coefficients which may be dropped are those of L(g u)/g. With tensorize, where the coefficients are dropped block by block, the errors of the blocks propagate as in a product; for composite quadratures, the errors add up with the weights.", "quantifier": "all functions, quadratures, index sets which represent products, degrees, lists of derivatives, operators of order at most 5, dense and sparse", "why_tests_cant": "Tests use functions of order one; the effect of the tolerance on functions with small or widely spread coefficients is not seen.", "anchors": ["cpp/src/hermite/varf.cpp: varf", "hermipy/quad.py: Quad.varf", "hermipy/quad.py: Quad.varfd", "hermipy/quad.py: Quad.discretize_op"]}
