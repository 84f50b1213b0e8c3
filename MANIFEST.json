{
 "claims": [
  {
   "property": "C01",
   "status": "proved",
   "theorems": [
    "Hermipy.Props.C01_triangle_listing"
   ],
   "note": "dim >= 1; dim = 0 is undefined behaviour in the code"
  },
  {
   "property": "C02",
   "status": "proved",
   "theorems": [
    "Hermipy.Props.C02_cube_listing"
   ],
   "note": "dim >= 1"
  },
  {
   "property": "C03",
   "status": "proved",
   "theorems": [
    "Hermipy.Props.C03_rectangle_listing"
   ],
   "note": "dim >= 1"
  },
  {
   "property": "C04",
   "status": "proved",
   "theorems": [
    "Hermipy.Props.C04_cross_listing"
   ],
   "note": "dim >= 1; degree 0 lists the set of degree 1"
  },
  {
   "property": "C05",
   "status": "proved",
   "theorems": [
    "Hermipy.Props.C05_cross_nc_listing"
   ],
   "note": "dim >= 1; products tested must stay below 2^32 (stated hypothesis)"
  },
  {
   "property": "C06",
   "status": "proved",
   "theorems": [
    "Hermipy.Props.C06_size",
    "Hermipy.Props.C06_closed_forms"
   ],
   "note": "for listings with fewer than 2^32 elements"
  },
  {
   "property": "C07",
   "status": "proved",
   "theorems": [
    "Hermipy.Props.C07_prefix",
    "Hermipy.Props.C07_cross_nc_not_prefix"
   ],
   "note": "cross_nc excluded in the claim; shown not nested"
  },
  {
   "property": "C08",
   "status": "proved",
   "theorems": [
    "Hermipy.Props.C08_triangle_index"
   ],
   "note": "positions below 2^32"
  },
  {
   "property": "C09",
   "status": "partial",
   "theorems": [
    "Hermipy.Props.C09_cube_index_partial",
    "Hermipy.Props.C09_zero_undefined"
   ],
   "note": "false at the zero multi-index (undefined behaviour, proved); proved for all others"
  },
  {
   "property": "C10",
   "status": "partial",
   "theorems": [
    "Hermipy.Props.C10_degree_of_size_partial",
    "Hermipy.Props.C10_degree_of_size_general_partial",
    "Hermipy.Props.C10_dim5_undefined",
    "Hermipy.Props.C10_rectangle_dim8",
    "Hermipy.Props.C10_cross_zero",
    "Hermipy.Props.C10_cross_nc_one"
   ],
   "note": "proved for dim <= 4 minus two cases; counterexamples proved for the rest"
  },
  {
   "property": "C11",
   "status": "partial",
   "theorems": [
    "Hermipy.Props.C11_sound_partial",
    "Hermipy.Props.C11_cross_invents",
    "Hermipy.Props.C11_exit_code",
    "Hermipy.Props.C11_high_degree_false",
    "Hermipy.Props.C11_cross_range",
    "Hermipy.Props.C11_series_exits",
    "Hermipy.Props.C11_dim5_series",
    "Hermipy.Props.C10_dim5_undefined"
   ],
   "note": "proved for all n, dim <= 4, all sets but cross; counterexample proved for cross"
  },
  {
   "property": "C12",
   "status": "proved",
   "theorems": [
    "Hermipy.Props.C12_lookup",
    "Hermipy.Props.C12_keys"
   ],
   "note": ""
  },
  {
   "property": "C13",
   "status": "proved",
   "theorems": [
    "Hermipy.Props.C13_protocol"
   ],
   "note": "any history of increment/reset calls"
  },
  {
   "property": "C14",
   "status": "proved",
   "theorems": [
    "Hermipy.Props.C14_grid",
    "Hermipy.Props.C14_conditions"
   ],
   "note": "non-empty vector of bounds in [1, 2^32)"
  },
  {
   "property": "C15",
   "status": "proved",
   "theorems": [
    "Hermipy.Props.C15_project_vec",
    "Hermipy.Props.C15_increasing_dirs",
    "Hermipy.Props.usable_up_to_dim_four",
    "Hermipy.Props.C15_C21_dim5_undefined",
    "Hermipy.Props.C15_C21_exits"
   ],
   "note": "side condition Usable/Sized (sizes below 2^32, degree recoverable) proved for dim <= 4, degree <= 250 in usable_up_to_dim_four"
  },
  {
   "property": "C16",
   "status": "proved",
   "theorems": [
    "Hermipy.Props.C16_project_mat",
    "Hermipy.Props.C16_dense_and_sparse",
    "Hermipy.Props.C15_C21_dim5_undefined",
    "Hermipy.Props.C15_C21_exits"
   ],
   "note": "side condition Usable/Sized (sizes below 2^32, degree recoverable) proved for dim <= 4, degree <= 250 in usable_up_to_dim_four"
  },
  {
   "property": "C17",
   "status": "proved",
   "theorems": [
    "Hermipy.Props.C17_tensorize_vec",
    "Hermipy.Props.C17_vec_id",
    "Hermipy.Props.C15_C21_dim5_undefined",
    "Hermipy.Props.C15_C21_exits"
   ],
   "note": "side condition Usable/Sized (sizes below 2^32, degree recoverable) proved for dim <= 4, degree <= 250 in usable_up_to_dim_four"
  },
  {
   "property": "C18",
   "status": "proved",
   "theorems": [
    "Hermipy.Props.C18_tensorize_mats",
    "Hermipy.Props.C18_dense_and_sparse",
    "Hermipy.Props.C18_mat_id",
    "Hermipy.Props.C15_C21_dim5_undefined",
    "Hermipy.Props.C15_C21_exits"
   ],
   "note": "side condition Usable/Sized (sizes below 2^32, degree recoverable) proved for dim <= 4, degree <= 250 in usable_up_to_dim_four"
  },
  {
   "property": "C19",
   "status": "proved",
   "theorems": [
    "Hermipy.Props.C19_vec_order",
    "Hermipy.Props.C19_mat_order"
   ],
   "note": "side condition Usable/Sized (sizes below 2^32, degree recoverable) proved for dim <= 4, degree <= 250 in usable_up_to_dim_four"
  },
  {
   "property": "C20",
   "status": "partial",
   "theorems": [
    "Hermipy.Props.C20_project_tensorize_partial",
    "Hermipy.Props.C20_project_tensorize_mat_partial",
    "Hermipy.Props.C20_vec_id_partial",
    "Hermipy.Props.C20_rectangle_loses"
   ],
   "note": "for the rectangle only blocks containing direction 0; otherwise false (counterexample proved). side condition Usable/Sized (sizes below 2^32, degree recoverable) proved for dim <= 4, degree <= 250 in usable_up_to_dim_four"
  },
  {
   "property": "C21",
   "status": "proved",
   "theorems": [
    "Hermipy.Props.C21_inner",
    "Hermipy.Props.C15_C21_dim5_undefined",
    "Hermipy.Props.C15_C21_exits"
   ],
   "note": "side condition Usable/Sized (sizes below 2^32, degree recoverable) proved for dim <= 4, degree <= 250 in usable_up_to_dim_four"
  },
  {
   "property": "C22",
   "status": "proved",
   "theorems": [
    "Hermipy.Props.C22_dot",
    "Hermipy.Props.C22_tensor",
    "Hermipy.Props.C22_project"
   ],
   "note": "side condition Usable/Sized (sizes below 2^32, degree recoverable) proved for dim <= 4, degree <= 250 in usable_up_to_dim_four"
  },
  {
   "property": "C23",
   "status": "proved",
   "theorems": [
    "Hermipy.Props.C23_inner_symm"
   ],
   "note": "side condition Usable/Sized (sizes below 2^32, degree recoverable) proved for dim <= 4, degree <= 250 in usable_up_to_dim_four"
  },
  {
   "property": "C24",
   "status": "partial",
   "theorems": [
    "Hermipy.Props.C24_hermite_eval_partial",
    "Hermipy.Props.C24_degree_zero_undefined",
    "Hermipy.Props.C24_degree_zero_slack"
   ],
   "note": "all x, degrees >= 1; at degree 0 the code writes out of range (proved)"
  },
  {
   "property": "C25",
   "status": "proved",
   "theorems": [
    "Hermipy.Props.C25_orthonormal",
    "Hermipy.Props.C25_computed"
   ],
   "note": ""
  },
  {
   "property": "C26",
   "status": "proved",
   "theorems": [
    "Hermipy.Props.C26_forward",
    "Hermipy.Props.C26_backward",
    "Hermipy.Props.C26_cross_zero_undefined"
   ],
   "note": "doubles as real numbers; grids with fewer than 2^32 points; even degree with Fourier directions; degree >= 1 for the crosses and with Hermite directions; the crosses at degree 0 shown undefined"
  },
  {
   "property": "C27",
   "status": "proved",
   "theorems": [
    "Hermipy.Props.C27_transform_product"
   ],
   "note": "doubles as real numbers; grids with fewer than 2^32 points; even degree with Fourier directions; degree >= 1 for the crosses and with Hermite directions"
  },
  {
   "property": "C28",
   "status": "proved",
   "theorems": [
    "Hermipy.Props.C28_round_trip",
    "Hermipy.Props.C28_exact_rule"
   ],
   "note": "doubles as real numbers; grids with fewer than 2^32 points; even degree with Fourier directions; degree >= 1 for the crosses and with Hermite directions"
  },
  {
   "property": "C29",
   "status": "proved",
   "theorems": [
    "Hermipy.Props.C29_forward_linear",
    "Hermipy.Props.C29_backward_linear",
    "Hermipy.Props.C29_adjoint"
   ],
   "note": "doubles as real numbers; grids with fewer than 2^32 points; even degree with Fourier directions; degree >= 1 for the crosses and with Hermite directions"
  },
  {
   "property": "C30",
   "status": "proved",
   "theorems": [
    "Hermipy.Props.C30_fourier_rule",
    "Hermipy.Props.C30_transform_exact",
    "Hermipy.Props.C30_sharp"
   ],
   "note": "doubles as real numbers"
  },
  {
   "property": "C31",
   "status": "partial",
   "theorems": [
    "Hermipy.Props.C31_integrate_partial",
    "Hermipy.Props.C31_hermite_undefined"
   ],
   "note": "value proved for Fourier directions, or if unused memory follows the buffers; with a Hermite direction the call is undefined in C++ (proved)"
  },
  {
   "property": "C32",
   "status": "partial",
   "theorems": [
    "Hermipy.Props.C32_transform_odd",
    "Hermipy.Props.C32_triple_odd",
    "Hermipy.Props.C32_varf_odd",
    "Hermipy.Props.C32_empty_direction"
   ],
   "note": "proved for transform, the tables and varf when the Fourier direction has a node; without nodes the check is skipped (proved)"
  },
  {
   "property": "C33",
   "status": "proved",
   "theorems": [
    "Hermipy.Props.C33_hermite_table",
    "Hermipy.Props.C33_hermite_linearise"
   ],
   "note": "doubles as real numbers"
  },
  {
   "property": "C34",
   "status": "proved",
   "theorems": [
    "Hermipy.Props.C34_fourier_table",
    "Hermipy.Props.C34_fourier_linearise"
   ],
   "note": "doubles as real numbers"
  },
  {
   "property": "C35",
   "status": "partial",
   "theorems": [
    "Hermipy.Props.C35_entries_partial",
    "Hermipy.Props.C35_exact",
    "Hermipy.Props.C35_error",
    "Hermipy.Props.C35_closed",
    "Hermipy.Props.C35_cross_zero",
    "Hermipy.Props.C35_cross_false",
    "Hermipy.Props.C35_C36_fourier_false",
    "Hermipy.Props.C35_rectangle_false"
   ],
   "note": "entry formula for all sets; equality with the quadrature where products stay in the doubled set; counterexamples proved for the others"
  },
  {
   "property": "C36",
   "status": "partial",
   "theorems": [
    "Hermipy.Props.C36_symmetric",
    "Hermipy.Props.C36_nonneg_partial",
    "Hermipy.Props.C35_C36_fourier_false"
   ],
   "note": "symmetry for all; positivity where C35 is exact; a negative diagonal entry proved for the triangle and crosses with Fourier directions"
  },
  {
   "property": "C37",
   "status": "partial",
   "theorems": [
    "Hermipy.Props.C37_varf_product_partial",
    "Hermipy.Props.C37_false"
   ],
   "note": "proved where products of basis functions stay in the doubled set and no coefficient is dropped; false otherwise (proved for every set but the cube)"
  },
  {
   "property": "C38",
   "status": "partial",
   "theorems": [
    "Hermipy.Props.C38_varf",
    "Hermipy.Props.C38_varfd_hermite",
    "Hermipy.Props.C38_varfd_fourier_partial",
    "Hermipy.Props.C38_varfd_fourier_false",
    "Hermipy.Props.C16_dense_and_sparse",
    "Hermipy.Props.C18_dense_and_sparse"
   ],
   "note": "proved for varf, project, tensorize and varfd; in a Fourier direction varfd on a sparse zero matrix returns where the dense call throws (proved)"
  },
  {
   "property": "C39",
   "status": "proved",
   "theorems": [
    "Hermipy.Props.C39_entries",
    "Hermipy.Props.C39_form"
   ],
   "note": "sizes below 2^32; doubles as real numbers"
  },
  {
   "property": "C40",
   "status": "partial",
   "theorems": [
    "Hermipy.Props.C40_entries_partial",
    "Hermipy.Props.C40_form",
    "Hermipy.Props.C40_returns_iff",
    "Hermipy.Props.C40_closed",
    "Hermipy.Props.C40_throws"
   ],
   "note": "proved for sets that hold the partner of each sine; for the others the call throws (proved, for dense matrices)"
  },
  {
   "property": "C41",
   "status": "partial",
   "theorems": [
    "Hermipy.Props.C41_hermite",
    "Hermipy.Props.C41_fourier_partial",
    "Hermipy.Props.C41_fourier_false"
   ],
   "note": "Hermite proved; Fourier false in the cosine columns because of unsigned arithmetic (proved)"
  },
  {
   "property": "C42",
   "status": "proved",
   "theorems": [
    "Hermipy.Props.C42_commute",
    "Hermipy.Props.C42_commute_mixed"
   ],
   "note": "C42_commute: Hermite directions, all sets. C42_commute_mixed: directions of any kind, sets which contain the partners of sines (see C40)."
  },
  {
   "property": "C43",
   "status": "partial",
   "theorems": [
    "Hermipy.Props.C43_dense_sparse_dense",
    "Hermipy.Props.C43_empty_undefined",
    "Hermipy.Props.C43_triples",
    "Hermipy.Props.C43_to_csr",
    "Hermipy.Props.C43_from_csr_partial",
    "Hermipy.Props.C43_csr_last",
    "Hermipy.Props.C43_repeated_false",
    "Hermipy.Props.C43_sparse_csr_sparse",
    "Hermipy.Props.C43_csr_sparse_csr_partial"
   ],
   "note": "all round trips proved for matrices with at least one row and csr arrays without repeated entries; repeated entries: last one wins, not the sum (proved)"
  },
  {
   "property": "C44",
   "status": "partial",
   "theorems": [
    "Hermipy.Props.C44_to_boost_mat_partial",
    "Hermipy.Props.C44_to_bmat_partial",
    "Hermipy.Props.C44_to_mat_partial",
    "Hermipy.Props.C44_boost_reads_outside",
    "Hermipy.Props.C44_boost_wrong",
    "Hermipy.Props.C44_to_mat_shape",
    "Hermipy.Props.C44_slice_false",
    "Hermipy.Props.C44_not_contiguous",
    "Hermipy.Props.C44_to_numpy",
    "Hermipy.Props.C44_square_round_trip"
   ],
   "note": "proved for contiguous (to_boost_mat: and square) arrays; wrong entries, wrong shape, reads out of range and exceptions proved for the others"
  },
  {
   "property": "C45",
   "status": "proved",
   "theorems": [
    "Hermipy.Props.C45_discretize",
    "Hermipy.Props.C45_transform",
    "Hermipy.Props.C45_no_direction"
   ],
   "note": "at least one direction, fewer than 2^32 points; doubles as real numbers"
  },
  {
   "property": "C46",
   "status": "partial",
   "theorems": [
    "Hermipy.Props.C46_function_partial",
    "Hermipy.Props.C46_collision",
    "Hermipy.Props.C46_collision_value",
    "Hermipy.Props.C46_compile_failure"
   ],
   "note": "proved without hash collisions in the history and for bodies that compile; both exceptions shown to fail"
  },
  {
   "property": "C47",
   "status": "partial",
   "theorems": [
    "Hermipy.Props.C47_separated_partial",
    "Hermipy.Props.C47_partial",
    "Hermipy.Props.C47_false",
    "Hermipy.Props.C47_names_false",
    "Hermipy.Props.C47_unsupported_false"
   ],
   "note": "False as stated: f(-1) then f(-2) returns -1 twice with the cache on, whatever md5. Proved for all histories in which calls sharing a file name have the same result, and for functions of distinct names called with comparable arguments unless byte strings of the history collide under md5."
  },
  {
   "property": "C48",
   "status": "partial",
   "theorems": [
    "Hermipy.Props.C48_partial",
    "Hermipy.Props.C48_names",
    "Hermipy.Props.C48_false",
    "Hermipy.Props.C48_modulus_false",
    "Hermipy.Props.C48_float_false",
    "Hermipy.Props.C48_types_false",
    "Hermipy.Props.C48_arrays_false",
    "Hermipy.Props.C48_keyword_false",
    "Hermipy.Props.C48_extend_false"
   ],
   "note": "False as stated: -1 and -2, 1 and True and '1', arrays of different shapes, lists and tuples share keys. Proved for calls comparable argument by argument, unless two of the byte strings hashed collide under md5."
  },
  {
   "property": "C49",
   "status": "proved",
   "theorems": [
    "Hermipy.Props.C49_finest_common",
    "Hermipy.Props.C49_order_irrelevant",
    "Hermipy.Props.C49_symm"
   ],
   "note": "iteration orders given by an arbitrary oracle"
  },
  {
   "property": "C50",
   "status": "proved",
   "theorems": [
    "Hermipy.Props.C50_split",
    "Hermipy.Props.C50_order",
    "Hermipy.Props.C50_legacy"
   ],
   "note": "factors of a product with their variable sets; sympy's own rewriting not modelled"
  },
  {
   "property": "C51",
   "status": "partial",
   "theorems": [
    "Hermipy.Props.C51_project_partial",
    "Hermipy.Props.C51_single",
    "Hermipy.Props.C51_raises_iff",
    "Hermipy.Props.C51_blocks",
    "Hermipy.Props.C51_false"
   ],
   "note": "proved when no factor couples dirs to other variables, and in full for one direction; otherwise a factor may be dropped silently (proved)"
  },
  {
   "property": "C52",
   "status": "partial",
   "theorems": [
    "Hermipy.Props.C52_tensorize_partial",
    "Hermipy.Props.C52_rejects",
    "Hermipy.Props.C52_single",
    "Hermipy.Props.C52_single_false",
    "Hermipy.Props.C52_types_unchecked"
   ],
   "note": "Full characterisation of the result and of the rejected inputs. The directions of the result are sorted as soon as there are two arguments; a single argument is returned as it is, hence the claim fails for one unsorted argument (C52_single_false)."
  },
  {
   "property": "C53",
   "status": "proved",
   "theorems": [
    "Hermipy.Props.C53_project",
    "Hermipy.Props.C53_project_rejects",
    "Hermipy.Props.C53_project_tensorize",
    "Hermipy.Props.C53_project_tensorize_eq",
    "Hermipy.Props.C53_project_tensorize_close",
    "Hermipy.Props.C53_tensorize_project"
   ],
   "note": "Exact equality for exactly diagonal positions with sorted directions; equality in the sense of __eq__ when the off-diagonal part is below the tolerance."
  },
  {
   "property": "C54",
   "status": "partial",
   "theorems": [
    "Hermipy.Props.C54_weight",
    "Hermipy.Props.C54_product_partial",
    "Hermipy.Props.C54_mixture",
    "Hermipy.Props.C54_false"
   ],
   "note": "weight() normalises with (2 pi)^dim: the claim holds for Hermite directions only or Fourier directions only, and fails for every mixture (C54_mixture)."
  },
  {
   "property": "C55",
   "status": "proved",
   "theorems": [
    "Hermipy.Props.C55_subdegree",
    "Hermipy.Props.C55_refused",
    "Hermipy.Props.C55_compose"
   ],
   "note": "sizes for which the constructor recovers the index set from the number of coefficients"
  },
  {
   "property": "C56",
   "status": "partial",
   "theorems": [
    "Hermipy.Props.C56_subdegree_partial",
    "Hermipy.Props.C56_too_high",
    "Hermipy.Props.C56_cross_nc_false"
   ],
   "note": "proved for the index sets whose listing is nested; for cross_nc the method neither raises nor returns the right entries (C56_cross_nc_false)"
  },
  {
   "property": "C57",
   "status": "partial",
   "theorems": [
    "Hermipy.Props.C57_series_partial",
    "Hermipy.Props.C57_series_factor_one",
    "Hermipy.Props.C57_series_factor_lost",
    "Hermipy.Props.C57_false",
    "Hermipy.Props.C57_varf",
    "Hermipy.Props.C57_rejects",
    "Hermipy.Props.C57_zero_throws"
   ],
   "note": "Varf in full; Series keeps the coefficients but drops the factor, so the claim holds for the factor one only"
  },
  {
   "property": "C58",
   "status": "partial",
   "theorems": [
    "Hermipy.Props.C58_value",
    "Hermipy.Props.C58_to_function_partial",
    "Hermipy.Props.C58_variance_false",
    "Hermipy.Props.C58_factor_false",
    "Hermipy.Props.C58_fourier_false"
   ],
   "note": "the value computed by to_function is determined for all series; it is the value of the series for unit variances, Hermite directions and factor one, and differs otherwise (three witnesses)"
  },
  {
   "property": "C59",
   "status": "proved",
   "theorems": [
    "Hermipy.Props.C59_split",
    "Hermipy.Props.C59_raises",
    "Hermipy.Props.C59_nonlinear_unchecked"
   ],
   "note": "expanded linear expressions with nonzero summands; sympy's expand, diff and simplify as their mathematical meaning"
  },
  {
   "property": "C60",
   "status": "partial",
   "theorems": [
    "Hermipy.Props.C60_series_scalar",
    "Hermipy.Props.C60_series_partial",
    "Hermipy.Props.C60_series_rejects",
    "Hermipy.Props.C60_degrees",
    "Hermipy.Props.C60_false",
    "Hermipy.Props.C60_varf_scalar",
    "Hermipy.Props.C60_varf_partial",
    "Hermipy.Props.C60_varf_rejects",
    "Hermipy.Props.C60_varf_degrees"
   ],
   "note": "entrywise for equal degrees; different positions, index sets and factors rejected; different degrees are accepted when one operand has a single coefficient (numpy broadcasting)"
  },
  {
   "property": "C61",
   "status": "proved",
   "theorems": [
    "Hermipy.Props.C61_call",
    "Hermipy.Props.C61_rejects"
   ],
   "note": "square matrices; products of real numbers"
  },
  {
   "property": "C62",
   "status": "partial",
   "theorems": [
    "Hermipy.Props.C62_indent",
    "Hermipy.Props.C62_no_exception_partial",
    "Hermipy.Props.C62_indent_iff",
    "Hermipy.Props.C62_log",
    "Hermipy.Props.C62_false"
   ],
   "note": "the level grows by one for each decorated call that raises, caught or not; restored exactly when none does (proved)"
  },
  {
   "property": "C63",
   "status": "partial",
   "theorems": [
    "Hermipy.Props.C63_init_partial",
    "Hermipy.Props.C63_rejects",
    "Hermipy.Props.C63_mean_only_false"
   ],
   "note": "consistent arguments are accepted and completed, others rejected; but mean or covariance alone raise instead of defaulting to the first directions"
  },
  {
   "property": "C64",
   "status": "partial",
   "theorems": [
    "Hermipy.Props.C64_integrate_partial",
    "Hermipy.Props.C64_direct",
    "Hermipy.Props.C64_sum_factor",
    "Hermipy.Props.C64_coordinate_false",
    "Hermipy.Props.C64_weights_false"
   ],
   "note": "functions whose directions are those of the quadrature. For fewer directions the claim is false: tensorized integration leaves out the weights of the other directions, direct integration evaluates at the wrong coordinates. If the factor is a sum, tensorized integration raises."
  },
  {
   "property": "C65",
   "status": "partial",
   "theorems": [
    "Hermipy.Props.C65_eval_partial",
    "Hermipy.Props.C65_types_ignored",
    "Hermipy.Props.C65_types_false",
    "Hermipy.Props.C65_correlated_false"
   ],
   "note": "same directions and types, diagonal covariances. False if the types differ (they are ignored) and for correlated directions (eval raises because the matrices are multiplied entrywise)."
  },
  {
   "property": "C66",
   "status": "proved",
   "theorems": [
    "Hermipy.Props.C66_transform",
    "Hermipy.Props.C66_round_trip"
   ],
   "note": "diagonal covariance with positive variances; the rule is orthonormal up to the degree and the factor has no zero on the grid"
  },
  {
   "property": "C67",
   "status": "proved",
   "theorems": [
    "Hermipy.Props.C67_tensorize",
    "Hermipy.Props.C67_disjoint",
    "Hermipy.Props.C67_full",
    "Hermipy.Props.C67_scalar",
    "Hermipy.Props.C67_rejects"
   ],
   "note": "series whose factors are products which the common directions split; positions diagonal, means and variances equal on common directions (the code does not compare types, and neither does the theorem)"
  },
  {
   "property": "C68",
   "status": "partial",
   "theorems": [
    "Hermipy.Props.C68_tensorize_partial",
    "Hermipy.Props.C68_direct",
    "Hermipy.Props.C68_sum_factor",
    "Hermipy.Props.C68_zero_false",
    "Hermipy.Props.C68_high_degree_false",
    "Hermipy.Props.C68_high_degree_cross",
    "Hermipy.Props.C68_dim5_undefined"
   ],
   "note": "sizes for which the library recovers the degree from the number of coefficients (all sets up to 4 directions and degree 250, usableTo_small; crosses beyond, usableTo_cross; the search in the code stops at 250), the factor one product without zeros on the grid. With zeros on the grid the claim is false (division guard applied per block); for degrees above 250 the process exits with code 0 after the computation (up to 4 directions), for the cross memory is read past the end of a listing; triangles and cubes in five and more directions are undefined; if the factor is a sum, the tensorized transform raises."
  },
  {
   "property": "C69",
   "status": "partial",
   "theorems": [
    "Hermipy.Props.C69_tensorize_partial",
    "Hermipy.Props.C69_single",
    "Hermipy.Props.C69_refused",
    "Hermipy.Props.C69_overlap_false",
    "Hermipy.Props.C69_project_false"
   ],
   "note": "pairwise disjoint directions in increasing order. With shared directions nothing is checked: of two forms with the same directions the last one wins, the directions vanish from the position, and the matrix is taken for one of another degree. Varf.project raises for any direction. A single form keeps its storage."
  },
  {
   "property": "C70",
   "status": "partial",
   "theorems": [
    "Hermipy.Props.C70_direct_partial",
    "Hermipy.Props.C70_tensorize_partial",
    "Hermipy.Props.C70_agree_partial",
    "Hermipy.Props.C70_sum_factor",
    "Hermipy.Props.C70_cross_false",
    "Hermipy.Props.C70_high_degree_false"
   ],
   "note": "sizes for which the library recovers the degree (see C68), the index set for twice the degree fits in the computed types, the factor one product; the index set represents products (directly: in all directions, tensorized: in each block) and no coefficient is below the tolerance (otherwise see the error bounds of C98). False for the crosses: directly the entry is 0, tensorized it is the quadrature; and for degrees above 250 (one direction), where the process exits with code 0."
  },
  {
   "property": "C71",
   "status": "partial",
   "theorems": [
    "Hermipy.Props.C71_direct_partial",
    "Hermipy.Props.C71_tensorize_partial",
    "Hermipy.Props.C71_agree_partial",
    "Hermipy.Props.C71_filter",
    "Hermipy.Props.C71_throws",
    "Hermipy.Props.C71_sum_factor",
    "Hermipy.Props.C71_outside_false",
    "Hermipy.Props.C71_triangle",
    "Hermipy.Props.C71_high_degree_false"
   ],
   "note": "sizes for which the library recovers the degree (see C68), the index set for twice the degree fits in the computed types, positive variances, tensorized: the factor one product; the index set represents products and the derivatives (directly: in all directions, tensorized: in each block), and no coefficient is below the tolerance (otherwise see the error bounds of C98). False for directions that do not belong to the quadrature, which are ignored, and for degrees above 250 (one direction), where the process exits with code 0."
  },
  {
   "property": "C72",
   "status": "partial",
   "theorems": [
    "Hermipy.Props.C72_direct_partial",
    "Hermipy.Props.C72_tensorize_partial",
    "Hermipy.Props.C72_directions",
    "Hermipy.Props.C72_order",
    "Hermipy.Props.C72_high_degree_false"
   ],
   "note": "as C71, for each coefficient of the operator. For degrees above 250 in one direction the process exits with code 0. Operators mapped by the factor of the quadrature are in C76."
  },
  {
   "property": "C73",
   "status": "partial",
   "theorems": [
    "Hermipy.Props.C73_project_partial",
    "Hermipy.Props.C73_coef_partial",
    "Hermipy.Props.C73_mean_partial",
    "Hermipy.Props.C73_rejects",
    "Hermipy.Props.C73_product",
    "Hermipy.Props.C73_false"
   ],
   "note": "no factor couples the directions to others; diagonal positions. False for coupling factors when several directions are kept: the coupling factor is dropped without an error. For the rectangle without its lowest direction, coefficients outside the index set of the series are zero."
  },
  {
   "property": "C74",
   "status": "partial",
   "theorems": [
    "Hermipy.Props.C74_tensorize_partial",
    "Hermipy.Props.C74_integral_partial",
    "Hermipy.Props.C74_integrate_partial",
    "Hermipy.Props.C74_project_partial",
    "Hermipy.Props.C74_reassemble_partial",
    "Hermipy.Props.C74_points",
    "Hermipy.Props.C74_shared",
    "Hermipy.Props.C74_empty"
   ],
   "note": "diagonal positions and fewer than 2^32 grid points; for projections, factors which are single products."
  },
  {
   "property": "C75",
   "status": "partial",
   "theorems": [
    "Hermipy.Props.C75_solve",
    "Hermipy.Props.C75_inverse",
    "Hermipy.Props.C75_remove_partial",
    "Hermipy.Props.C75_remove_symmetric_partial",
    "Hermipy.Props.C75_remove0_partial",
    "Hermipy.Props.C75_constrained_partial",
    "Hermipy.Props.C75_rejects",
    "Hermipy.Props.C75_remove_rejects",
    "Hermipy.Props.C75_float",
    "Hermipy.Props.C75_gmres_false",
    "Hermipy.Props.C75_remove_false",
    "Hermipy.Props.C75_factor_false"
   ],
   "note": "the linear solver of the library is exact; remove_vec has position and factor of the form, with diagonal covariance and a product as factor; for remove0, the eigenvector that the library returns spans the kernel (complex eigenvectors: C93_remove0)."
  },
  {
   "property": "C76",
   "status": "partial",
   "theorems": [
    "Hermipy.Props.C76_add",
    "Hermipy.Props.C76_sub",
    "Hermipy.Props.C76_neg",
    "Hermipy.Props.C76_mul",
    "Hermipy.Props.C76_compose",
    "Hermipy.Props.C76_apply",
    "Hermipy.Props.C76_apply_expr",
    "Hermipy.Props.C76_map",
    "Hermipy.Props.C76_map_order",
    "Hermipy.Props.C76_map_compose",
    "Hermipy.Props.C76_map_value",
    "Hermipy.Props.C76_add_zero",
    "Hermipy.Props.C76_rejects",
    "Hermipy.Props.C76_call_zero",
    "Hermipy.Props.C76_call_dirs",
    "Hermipy.Props.C76_discretize_partial",
    "Hermipy.Props.C76_discretize_tensorize_partial",
    "Hermipy.Props.C76_discretize_rejects",
    "Hermipy.Props.C76_smooth_partial"
   ],
   "note": "expressions which are linear in the unknown function, up to equality of functions (sympy decides equality and normal forms); the statements on operators are full, those on discretize_op have the bounds and exactness conditions of C71 (with dropped coefficients: C98_mapped)."
  },
  {
   "property": "C77",
   "status": "proved",
   "theorems": [
    "Hermipy.Props.C77_forward_backward",
    "Hermipy.Props.C77_map_operator",
    "Hermipy.Props.C77_fokker_planck_kernel",
    "Hermipy.Props.C77_fokker_planck_mass",
    "Hermipy.Props.C77_fokker_planck_adjoint",
    "Hermipy.Props.C77_overdamped_reversible",
    "Hermipy.Props.C77_fokker_planck_schrodinger",
    "Hermipy.Props.C77_schrodinger_symmetric",
    "Hermipy.Props.C77_mv_white",
    "Hermipy.Props.C77_line_sde",
    "Hermipy.Props.C77_mv_mass",
    "Hermipy.Props.C77_mv_kernel",
    "Hermipy.Props.C77_mv_sde",
    "Hermipy.Props.C77_langevin_forward",
    "Hermipy.Props.C77_langevin_adjoint",
    "Hermipy.Props.C77_langevin_backward",
    "Hermipy.Props.C77_langevin_sde",
    "Hermipy.Props.C77_harmonic_mass",
    "Hermipy.Props.C77_harmonic_kernel",
    "Hermipy.Props.C77_harmonic_sde",
    "Hermipy.Props.C77_gle_none",
    "Hermipy.Props.C77_gle_one",
    "Hermipy.Props.C77_gle_two",
    "Hermipy.Props.C77_gle_sde",
    "Hermipy.Props.C77_gle_rejects"
   ],
   "note": "smooth functions with compact support as test functions; parameters are real numbers. The number coeff_noise of McKean_Vlasov is a parameter; solve_gaussian is C90."
  },
  {
   "property": "C78",
   "status": "partial",
   "theorems": [
    "Hermipy.Props.C78_gauss_hermite_partial",
    "Hermipy.Props.C78_fourier_partial",
    "Hermipy.Props.C78_fourier_position",
    "Hermipy.Props.C78_fourier_position_false",
    "Hermipy.Props.C78_fourier_points_false",
    "Hermipy.Props.C78_gauss_points_false",
    "Hermipy.Props.C78_newton_cotes_partial",
    "Hermipy.Props.C78_newton_cotes_error_partial",
    "Hermipy.Props.C78_newton_cotes_box",
    "Hermipy.Props.C78_newton_cotes_rejects"
   ],
   "note": "numpy's hermegauss is assumed to be the Gauss rule (by C83_iff: the zeros of the Hermite polynomial with the well-known weights). Proved for the same number of points in each direction; different numbers raise (C78_fourier_points_false, C78_gauss_points_false). Quad.fourier with a position of several directions and an integer number of points builds a one-dimensional rule on which integrate is undefined (C78_fourier_position_false). newton_cotes: the product of the trapezoidal rules, with error bounds in one direction and in several (C78_newton_cotes_box). Correlated covariances: C96."
  },
  {
   "property": "C79",
   "status": "partial",
   "theorems": [
    "Hermipy.Props.C79_flat",
    "Hermipy.Props.C79_flat_fourier",
    "Hermipy.Props.C79_flat_gauss",
    "Hermipy.Props.C79_flat_tensorize_partial",
    "Hermipy.Props.C79_mixture_false",
    "Hermipy.Props.C79_norm_values",
    "Hermipy.Props.C79_norm_expr",
    "Hermipy.Props.C79_norm_rejects",
    "Hermipy.Props.C79_parseval",
    "Hermipy.Props.C79_series",
    "Hermipy.Props.C79_series_mean"
   ],
   "note": "diagonal positions with positive variances. On mixtures of Hermite and other directions the flat integral is too large by sqrt(2 pi) for each of the others (C79_flat) and depends on tensorize (C79_mixture_false); with tensorize: factors which do not couple Hermite with other directions. norm raises for Function and str and returns None for other n (C79_norm_rejects)."
  },
  {
   "property": "C80",
   "status": "partial",
   "theorems": [
    "Hermipy.Props.C80_spectrum_partial",
    "Hermipy.Props.C80_gauss_hermite_partial",
    "Hermipy.Props.C80_fokker_planck_partial",
    "Hermipy.Props.C80_fourier_partial",
    "Hermipy.Props.C80_kept",
    "Hermipy.Props.C80_fourier_kept",
    "Hermipy.Props.C80_vanish",
    "Hermipy.Props.C80_small_false",
    "Hermipy.Props.C80_mapped_kept",
    "Hermipy.Props.C80_fokker_planck_kept",
    "Hermipy.Props.C80_fokker_planck_false"
   ],
   "note": "sizes for which the library recovers the degree (see C68), diagonal positions with positive variances; rates for which discretize_op drops no coefficient of the generator as negligible (its threshold is 1e-12; C80_kept, C80_mapped_kept, C80_fourier_kept and C80_fokker_planck_kept say for all rates which terms are left; C80_small_false is a generator that becomes zero, C80_fokker_planck_false one that is not diagonal); sets which contain what products and derivatives need (triangles and cubes for gauss_hermite, cubes of even degree for fourier)."
  },
  {
   "property": "C81",
   "status": "partial",
   "theorems": [
    "Hermipy.Props.C81_position",
    "Hermipy.Props.C81_reflexive",
    "Hermipy.Props.C81_series_symmetric",
    "Hermipy.Props.C81_varf_symmetric",
    "Hermipy.Props.C81_quad_symmetric",
    "Hermipy.Props.C81_series_partial",
    "Hermipy.Props.C81_series_coef",
    "Hermipy.Props.C81_series_value",
    "Hermipy.Props.C81_series_degrees",
    "Hermipy.Props.C81_varf_partial",
    "Hermipy.Props.C81_varf_degrees",
    "Hermipy.Props.C81_quad_partial",
    "Hermipy.Props.C81_quad_points",
    "Hermipy.Props.C81_broadcast_false",
    "Hermipy.Props.C81_index_set_false",
    "Hermipy.Props.C81_transitive_false",
    "Hermipy.Props.C81_factor_false",
    "Hermipy.Props.C81_quad_false"
   ],
   "note": "for objects of the same degree and index set. Between different degrees or numbers of points the comparison raises or, if one has a single entry, broadcasts it (C81_broadcast_false, C81_quad_false); index sets are not compared (C81_index_set_false), nor are factors of forms (C81_factor_false); the comparison is not transitive (C81_transitive_false)."
  },
  {
   "property": "C82",
   "status": "partial",
   "theorems": [
    "Hermipy.Props.C82_init",
    "Hermipy.Props.C82_init_rejects",
    "Hermipy.Props.C82_integrate",
    "Hermipy.Props.C82_integrate_function",
    "Hermipy.Props.C82_exact",
    "Hermipy.Props.C82_gauss",
    "Hermipy.Props.C82_varf",
    "Hermipy.Props.C82_varf_function",
    "Hermipy.Props.C82_varf_rejects",
    "Hermipy.Props.C82_transform_false",
    "Hermipy.Props.C82_project_false",
    "Hermipy.Props.C82_eq_partial",
    "Hermipy.Props.C82_eq_quad_partial",
    "Hermipy.Props.C82_eq_false",
    "Hermipy.Props.C82_varfd_false",
    "Hermipy.Props.C82_discretize_op_false"
   ],
   "note": "the methods transform and project always raise (C82_transform_false, C82_project_false), and the weights are not compared (C82_eq_false). varf: sizes for which the library recovers the degree (see C68), same factors, no dropped coefficients (see C70; otherwise C98_comp). varfd and discretize_op raise because of wrong argument names (C82_varfd_false, C82_discretize_op_false)."
  },
  {
   "property": "C83",
   "status": "proved",
   "theorems": [
    "Hermipy.Props.C83_exists_unique",
    "Hermipy.Props.C83_unique",
    "Hermipy.Props.C83_nodes",
    "Hermipy.Props.C83_weights",
    "Hermipy.Props.C83_iff",
    "Hermipy.Props.C83_symmetric",
    "Hermipy.Props.C83_sharp",
    "Hermipy.Props.C83_bounds"
   ],
   "note": "in exact arithmetic. C83_bounds: the same number of points in each direction, fewer than 2^32 grid points."
  },
  {
   "property": "C84",
   "status": "partial",
   "theorems": [
    "Hermipy.Props.C84_to_cpp_array",
    "Hermipy.Props.C84_to_cpp_array_rejects",
    "Hermipy.Props.C84_empty_rejected",
    "Hermipy.Props.C84_iterators",
    "Hermipy.Props.C84_iterator_index_partial",
    "Hermipy.Props.C84_iterator_index_false",
    "Hermipy.Props.C84_iterators_unknown",
    "Hermipy.Props.C84_tensorize_numbers",
    "Hermipy.Props.C84_tensorize_vectors",
    "Hermipy.Props.C84_sparse_vectors_false",
    "Hermipy.Props.C84_tensorize_matrices",
    "Hermipy.Props.C84_shortcut",
    "Hermipy.Props.C84_list_vectors",
    "Hermipy.Props.C84_list_matrices",
    "Hermipy.Props.C84_list_sparse",
    "Hermipy.Props.C84_list_mixed",
    "Hermipy.Props.C84_dict_mixed",
    "Hermipy.Props.C84_tensorize_rejects",
    "Hermipy.Props.C84_single_vector",
    "Hermipy.Props.C84_single_matrix",
    "Hermipy.Props.C84_project_vector",
    "Hermipy.Props.C84_project_matrix_partial",
    "Hermipy.Props.C84_inner",
    "Hermipy.Props.C84_unknown_exits"
   ],
   "note": "false as stated: unknown names terminate the process (C84_unknown_exits), iterator_index knows two of the five sets (C84_iterator_index_false), lists do not mix dense and sparse matrices (C84_list_mixed), vectors have no sparse product (C84_sparse_vectors_false), sparse matrices with repeated entries are projected wrongly (C43_repeated_false)."
  },
  {
   "property": "C85",
   "status": "partial",
   "theorems": [
    "Hermipy.Props.C85_default",
    "Hermipy.Props.C85_calls",
    "Hermipy.Props.C85_forward",
    "Hermipy.Props.C85_backward",
    "Hermipy.Props.C85_integrate_default_undefined",
    "Hermipy.Props.C85_varf",
    "Hermipy.Props.C85_varfd_hermite_partial",
    "Hermipy.Props.C85_varfd_fourier_partial",
    "Hermipy.Props.C85_chain",
    "Hermipy.Props.C85_rejects",
    "Hermipy.Props.C85_unknown_exits"
   ],
   "note": "false as stated: integrate without do_fourier is undefined behaviour (C85_integrate_default_undefined), unknown names terminate the process (C85_unknown_exits). Missing in varfd: dense matrices with 2^32 entries or more, sparse ones with repeated entries, non-contiguous arrays (C44), sets without the partners of sines (C40)."
  },
  {
   "property": "C86",
   "status": "proved",
   "theorems": [
    "Hermipy.Props.C86_gauss",
    "Hermipy.Props.C86_gauss_smooth",
    "Hermipy.Props.C86_fourier",
    "Hermipy.Props.C86_fourier_series"
   ],
   "note": "hermegauss is assumed to be the Gauss rule; the same number of points in each direction, fewer than 2^32 grid points; exact arithmetic. The Fourier rule gives the integral over the box rescaled to [-pi, pi] in each direction, as in C78."
  },
  {
   "property": "C87",
   "status": "partial",
   "theorems": [
    "Hermipy.Props.C87_function_curve",
    "Hermipy.Props.C87_function_surface",
    "Hermipy.Props.C87_series_curve",
    "Hermipy.Props.C87_series_surface",
    "Hermipy.Props.C87_hf_curve",
    "Hermipy.Props.C87_hf_surface",
    "Hermipy.Props.C87_turning",
    "Hermipy.Props.C87_sum_false",
    "Hermipy.Props.C87_coupled_false",
    "Hermipy.Props.C87_dimension",
    "Hermipy.Props.C87_hf_odd_false",
    "Hermipy.Props.C87_factor_false"
   ],
   "note": "Proved for quadratures whose factor is a single product with no part that couples the directions (the axes are found by projecting the quadrature, which raises an exception otherwise: C87_sum_false, C87_coupled_false), on one or two directions (C87_dimension); for plot_hf, the sum of the multi-index is even if there is a Fourier direction (C87_hf_odd_false). A factor as array, or with a function, raises an exception. The matplotlib calls are represented by the data they are given."
  },
  {
   "property": "C88",
   "status": "partial",
   "theorems": [
    "Hermipy.Props.C88_streams",
    "Hermipy.Props.C88_differences",
    "Hermipy.Props.C88_accuracy",
    "Hermipy.Props.C88_levels",
    "Hermipy.Props.C88_levels_false",
    "Hermipy.Props.C88_functions_false",
    "Hermipy.Props.C88_directions_false"
   ],
   "note": "Proved for series on the directions 0 and 1. False for expressions and functions, of which nothing is drawn (unbound variables), for other directions, and for the levels of constant stream functions."
  },
  {
   "property": "C89",
   "status": "partial",
   "theorems": [
    "Hermipy.Props.C89_value",
    "Hermipy.Props.C89_dirs",
    "Hermipy.Props.C89_dim",
    "Hermipy.Props.C89_free",
    "Hermipy.Props.C89_rejects",
    "Hermipy.Props.C89_rejects_dependence",
    "Hermipy.Props.C89_arithmetic",
    "Hermipy.Props.C89_arithmetic_rejects",
    "Hermipy.Props.C89_operand",
    "Hermipy.Props.C89_as_xyz",
    "Hermipy.Props.C89_round_trip",
    "Hermipy.Props.C89_negative_accepted",
    "Hermipy.Props.C89_repeated_accepted",
    "Hermipy.Props.C89_copy_false",
    "Hermipy.Props.C89_ccode",
    "Hermipy.Props.C89_ccode_false",
    "Hermipy.Props.C89_sanitize_error",
    "Hermipy.Props.C89_sanitize_recovers",
    "Hermipy.Props.C89_sanitize_idempotent",
    "Hermipy.Props.C89_sanitize_threshold",
    "Hermipy.Props.C89_sanitize_drops"
   ],
   "note": "Proved under the laws of sympy's operations in SymLaws (satisfied by FinExpr). False: negative directions and repeated ones are accepted (C89_negative_accepted, C89_repeated_accepted), and directions given for a Function are ignored (C89_copy_false); ccode changes other identifiers that begin with a variable, like x10 (C89_ccode_false); sanitize drops coefficients up to 5e-9 (C89_sanitize_drops), its threshold has no effect (C89_sanitize_threshold)."
  },
  {
   "property": "C90",
   "status": "proved",
   "theorems": [
    "Hermipy.Props.C90_normal",
    "Hermipy.Props.C90_kernel",
    "Hermipy.Props.C90_density",
    "Hermipy.Props.C90_unique",
    "Hermipy.Props.C90_found",
    "Hermipy.Props.C90_offset",
    "Hermipy.Props.C90_backward",
    "Hermipy.Props.C90_fokker_planck",
    "Hermipy.Props.C90_mv_white",
    "Hermipy.Props.C90_mv",
    "Hermipy.Props.C90_harmonic",
    "Hermipy.Props.C90_langevin",
    "Hermipy.Props.C90_langevin_backward",
    "Hermipy.Props.C90_solver",
    "Hermipy.Props.C90_unstable"
   ],
   "note": "The solver is a parameter with the contracts Roots and Finds (satisfied by some solver: C90_solver). For unstable drifts, where there is no stationary distribution, an imaginary or an unbounded function is returned without a message (C90_unstable)."
  },
  {
   "property": "C91",
   "status": "proved",
   "theorems": [
    "Hermipy.Props.C91_exact",
    "Hermipy.Props.C91_binary",
    "Hermipy.Props.C91_size",
    "Hermipy.Props.C91_hermite_eval",
    "Hermipy.Props.C91_forward",
    "Hermipy.Props.C91_backward",
    "Hermipy.Props.C91_integrate",
    "Hermipy.Props.C91_integrate_bounded",
    "Hermipy.Props.C91_inner",
    "Hermipy.Props.C91_tensorize"
   ],
   "note": "The operations are evaluated as written; reassociation allowed by -Ofast is not modelled, overflow and underflow are excluded by the standard model."
  },
  {
   "property": "C92",
   "status": "partial",
   "theorems": [
    "Hermipy.Props.C92_detects_partial",
    "Hermipy.Props.C92_accepts",
    "Hermipy.Props.C92_fresh",
    "Hermipy.Props.C92_transparent_partial",
    "Hermipy.Props.C92_stale_partial",
    "Hermipy.Props.C92_confirms",
    "Hermipy.Props.C92_quiet",
    "Hermipy.Props.C92_sparse_false",
    "Hermipy.Props.C92_axes_false",
    "Hermipy.Props.C92_shape_false"
   ],
   "note": "Proved for results of the same kind and shape, and for sparse matrices with the same places. False otherwise: sparse matrices are compared without their places and shapes (C92_sparse_false), vectors with numbers of any shape that broadcasts (C92_shape_false), and results with three or more axes always raise (C92_axes_false)."
  },
  {
   "property": "C93",
   "status": "proved",
   "theorems": [
    "Hermipy.Props.C93_eigs",
    "Hermipy.Props.C93_real",
    "Hermipy.Props.C93_nearly_real",
    "Hermipy.Props.C93_remove0",
    "Hermipy.Props.C93_remove0_singular",
    "Hermipy.Props.C93_remove0_rejects",
    "Hermipy.Props.C93_uncached"
   ],
   "note": "The library routines are parameters, assumed exact: eigenvectors of length one, solutions of nonsingular systems. remove0 is right for real and complex eigenvectors of a kernel spanned by one function; if the eigenvalue found is not zero, the system may be singular (C93_remove0_singular)."
  },
  {
   "property": "C94",
   "status": "partial",
   "theorems": [
    "Hermipy.Props.C94_dense",
    "Hermipy.Props.C94_sparse_partial",
    "Hermipy.Props.C94_sparse_false",
    "Hermipy.Props.C94_lines",
    "Hermipy.Props.C94_lines_degree",
    "Hermipy.Props.C94_lines_cross",
    "Hermipy.Props.C94_lines_false",
    "Hermipy.Props.C94_series_line",
    "Hermipy.Props.C94_series_plane",
    "Hermipy.Props.C94_series_false",
    "Hermipy.Props.C94_nodes_text",
    "Hermipy.Props.C94_nodes_false"
   ],
   "note": "False for sparse forms with entries that are not above 1e-9: the stored values are taken with their signs (C94_sparse_false). The lines are right for the triangle, the cube, the rectangle and (with one more line) the cross, but not for cross_nc (C94_lines_false). In three directions or more Series.plot raises or draws nothing (C94_series_false). mapped_nodes never works (C94_nodes_false, for a compiler that rejects unknown names)."
  },
  {
   "property": "C95",
   "status": "proved",
   "theorems": [
    "Hermipy.Props.C95_exact",
    "Hermipy.Props.C95_binary",
    "Hermipy.Props.C95_hermite_table",
    "Hermipy.Props.C95_fourier_table",
    "Hermipy.Props.C95_varf",
    "Hermipy.Props.C95_quadrature",
    "Hermipy.Props.C95_symmetric"
   ],
   "note": "The operations are evaluated as written; reassociation allowed by -Ofast is not modelled, overflow and underflow are excluded by the standard model. Adding zero and multiplying by zero are taken to be exact, signs and comparisons too."
  },
  {
   "property": "C96",
   "status": "partial",
   "theorems": [
    "Hermipy.Props.C96_density",
    "Hermipy.Props.C96_weight",
    "Hermipy.Props.C96_orthonormal",
    "Hermipy.Props.C96_factor_partial",
    "Hermipy.Props.C96_discretize",
    "Hermipy.Props.C96_tensorize",
    "Hermipy.Props.C96_gauss_hermite_partial",
    "Hermipy.Props.C96_rule",
    "Hermipy.Props.C96_covariance",
    "Hermipy.Props.C96_transform_partial",
    "Hermipy.Props.C96_repeated_false"
   ],
   "note": "numpy's hermegauss is assumed to be the Gauss rule, eig to return unit and linearly independent eigenvectors. Proved for distinct eigenvalues and for orthonormal eigenvectors. For repeated eigenvalues numpy.linalg.eig does not promise orthogonal eigenvectors; without them the quadrature has a wrong covariance matrix (C96_rule says which, C96_repeated_false gives a case). Positions with Hermite directions only."
  },
  {
   "property": "C97",
   "status": "proved",
   "theorems": [
    "Hermipy.Props.C97_exact",
    "Hermipy.Props.C97_hermite",
    "Hermipy.Props.C97_fourier",
    "Hermipy.Props.C97_dense",
    "Hermipy.Props.C97_form_hermite",
    "Hermipy.Props.C97_form_fourier",
    "Hermipy.Props.C97_discretize",
    "Hermipy.Props.C97_values"
   ],
   "note": "The assumptions on the arithmetic are those of C95. The variant of varfd for nested vectors is wrong in Fourier directions even without rounding (C41_fourier_false) and is bounded in Hermite directions only. The points returned by map_point are compared with the affine map of the stored nodes, translation and dilation."
  },
  {
   "property": "C98",
   "status": "proved",
   "theorems": [
    "Hermipy.Props.C98_varf",
    "Hermipy.Props.C98_small",
    "Hermipy.Props.C98_varfd",
    "Hermipy.Props.C98_op",
    "Hermipy.Props.C98_tensorize",
    "Hermipy.Props.C98_varfd_tensorize",
    "Hermipy.Props.C98_op_tensorize",
    "Hermipy.Props.C98_mapped",
    "Hermipy.Props.C98_comp"
   ],
   "note": "In exact arithmetic. The index set must contain what products of two basis functions need (C35_closed says for which sets this holds; C70_cross_false is a set for which it does not). With tensorize the blocks are truncated one by one and the errors propagate as in a product (C98_tensorize, C98_varfd_tensorize and C98_op_tensorize; the last for an operator that is not zero)."
  }
 ]
}
