"""Generate MANIFEST.json. One entry per property: status, theorems, note."""
import json
import os

CLAIMS = {}


def claim(pid, status, theorems, note):
    CLAIMS[pid] = {"property": pid, "status": status,
                   "theorems": ["Hermipy.Props." + t for t in theorems.split()],
                   "note": note}


claim("C01", "proved", "C01_triangle_listing", "dim >= 1; dim = 0 is undefined behaviour in the code")
claim("C02", "proved", "C02_cube_listing", "dim >= 1")
claim("C03", "proved", "C03_rectangle_listing", "dim >= 1")
claim("C04", "proved", "C04_cross_listing", "dim >= 1; degree 0 lists the set of degree 1")
claim("C05", "proved", "C05_cross_nc_listing", "dim >= 1; products tested must stay below 2^32 (stated hypothesis)")
claim("C06", "proved", "C06_size C06_closed_forms", "for listings with fewer than 2^32 elements")
claim("C07", "proved", "C07_prefix C07_cross_nc_not_prefix", "cross_nc excluded in the claim; shown not nested")
claim("C08", "proved", "C08_triangle_index", "positions below 2^32")
claim("C09", "partial", "C09_cube_index_partial C09_zero_undefined",
      "false at the zero multi-index (undefined behaviour, proved); proved for all others")
claim("C10", "partial",
      "C10_degree_of_size_partial C10_degree_of_size_general_partial C10_dim5_undefined C10_rectangle_dim8 C10_cross_zero C10_cross_nc_one",
      "proved for dim <= 4 minus two cases; counterexamples proved for the rest")
claim("C11", "partial", "C11_sound_partial C11_cross_invents C11_exit_code C11_high_degree_false C11_cross_range C11_series_exits C11_dim5_series C10_dim5_undefined",
      "proved for all n, dim <= 4, all sets but cross; counterexample proved for cross")
claim("C12", "proved", "C12_lookup C12_keys", "")
claim("C13", "proved", "C13_protocol", "any history of increment/reset calls")
claim("C14", "proved", "C14_grid C14_conditions", "non-empty vector of bounds in [1, 2^32)")
U = "side condition Usable/Sized (sizes below 2^32, degree recoverable) proved for dim <= 4, degree <= 250 in usable_up_to_dim_four"
claim("C15", "proved", "C15_project_vec C15_increasing_dirs usable_up_to_dim_four C15_C21_dim5_undefined C15_C21_exits", U)
claim("C16", "proved", "C16_project_mat C16_dense_and_sparse C15_C21_dim5_undefined C15_C21_exits", U)
claim("C17", "proved", "C17_tensorize_vec C17_vec_id C15_C21_dim5_undefined C15_C21_exits", U)
claim("C18", "proved", "C18_tensorize_mats C18_dense_and_sparse C18_mat_id C15_C21_dim5_undefined C15_C21_exits", U)
claim("C19", "proved", "C19_vec_order C19_mat_order", U)
claim("C20", "partial", "C20_project_tensorize_partial C20_project_tensorize_mat_partial C20_vec_id_partial C20_rectangle_loses",
      "for the rectangle only blocks containing direction 0; otherwise false (counterexample proved). " + U)
claim("C21", "proved", "C21_inner C15_C21_dim5_undefined C15_C21_exits", U)
claim("C22", "proved", "C22_dot C22_tensor C22_project", U)
claim("C23", "proved", "C23_inner_symm", U)
claim("C24", "partial", "C24_hermite_eval_partial C24_degree_zero_undefined C24_degree_zero_slack",
      "all x, degrees >= 1; at degree 0 the code writes out of range (proved)")
claim("C25", "proved", "C25_orthonormal C25_computed", "")
G = "doubles as real numbers; grids with fewer than 2^32 points; even degree with Fourier directions; degree >= 1 for the crosses and with Hermite directions"
claim("C26", "proved", "C26_forward C26_backward C26_cross_zero_undefined", G + "; the crosses at degree 0 shown undefined")
claim("C27", "proved", "C27_transform_product", G)
claim("C28", "proved", "C28_round_trip C28_exact_rule", G)
claim("C29", "proved", "C29_forward_linear C29_backward_linear C29_adjoint", G)
claim("C30", "proved", "C30_fourier_rule C30_transform_exact C30_sharp", "doubles as real numbers")
claim("C31", "partial", "C31_integrate_partial C31_hermite_undefined",
      "value proved for Fourier directions, or if unused memory follows the buffers; with a Hermite direction the call is undefined in C++ (proved)")
claim("C32", "partial", "C32_transform_odd C32_triple_odd C32_varf_odd C32_empty_direction",
      "proved for transform, the tables and varf when the Fourier direction has a node; without nodes the check is skipped (proved)")
claim("C33", "proved", "C33_hermite_table C33_hermite_linearise", "doubles as real numbers")
claim("C34", "proved", "C34_fourier_table C34_fourier_linearise", "doubles as real numbers")
claim("C35", "partial",
      "C35_entries_partial C35_exact C35_error C35_closed C35_cross_zero C35_cross_false C35_C36_fourier_false C35_rectangle_false",
      "entry formula for all sets; equality with the quadrature where products stay in the doubled set; counterexamples proved for the others")
claim("C36", "partial", "C36_symmetric C36_nonneg_partial C35_C36_fourier_false",
      "symmetry for all; positivity where C35 is exact; a negative diagonal entry proved for the triangle and crosses with Fourier directions")
claim("C37", "partial", "C37_varf_product_partial C37_false",
      "proved where products of basis functions stay in the doubled set and no coefficient is dropped; false otherwise (proved for every set but the cube)")
claim("C38", "partial", "C38_varf C38_varfd_hermite C38_varfd_fourier_partial C38_varfd_fourier_false C16_dense_and_sparse C18_dense_and_sparse",
      "proved for varf, project, tensorize and varfd; in a Fourier direction varfd on a sparse zero matrix returns where the dense call throws (proved)")
claim("C39", "proved", "C39_entries C39_form", "sizes below 2^32; doubles as real numbers")
claim("C40", "partial", "C40_entries_partial C40_form C40_returns_iff C40_closed C40_throws",
      "proved for sets that hold the partner of each sine; for the others the call throws (proved, for dense matrices)")
claim("C41", "partial", "C41_hermite C41_fourier_partial C41_fourier_false",
      "Hermite proved; Fourier false in the cosine columns because of unsigned arithmetic (proved)")
claim("C42", "proved", "C42_commute C42_commute_mixed", "C42_commute: Hermite directions, all sets. C42_commute_mixed: directions of any kind, sets which contain the partners of sines (see C40).")
claim("C43", "partial",
      "C43_dense_sparse_dense C43_empty_undefined C43_triples C43_to_csr C43_from_csr_partial C43_csr_last C43_repeated_false C43_sparse_csr_sparse C43_csr_sparse_csr_partial",
      "all round trips proved for matrices with at least one row and csr arrays without repeated entries; repeated entries: last one wins, not the sum (proved)")
claim("C44", "partial",
      "C44_to_boost_mat_partial C44_to_bmat_partial C44_to_mat_partial C44_boost_reads_outside C44_boost_wrong C44_to_mat_shape C44_slice_false C44_not_contiguous C44_to_numpy C44_square_round_trip",
      "proved for contiguous (to_boost_mat: and square) arrays; wrong entries, wrong shape, reads out of range and exceptions proved for the others")
claim("C45", "proved", "C45_discretize C45_transform C45_no_direction", "at least one direction, fewer than 2^32 points; doubles as real numbers")
claim("C46", "partial", "C46_function_partial C46_collision C46_collision_value C46_compile_failure",
      "proved without hash collisions in the history and for bodies that compile; both exceptions shown to fail")
claim("C49", "proved", "C49_finest_common C49_order_irrelevant C49_symm", "iteration orders given by an arbitrary oracle")
claim("C50", "proved", "C50_split C50_order C50_legacy", "factors of a product with their variable sets; sympy's own rewriting not modelled")
claim("C51", "partial", "C51_project_partial C51_single C51_raises_iff C51_blocks C51_false",
      "proved when no factor couples dirs to other variables, and in full for one direction; otherwise a factor may be dropped silently (proved)")
claim("C62", "partial", "C62_indent C62_no_exception_partial C62_indent_iff C62_log C62_false",
      "the level grows by one for each decorated call that raises, caught or not; restored exactly when none does (proved)")

claim("C52", "partial", "C52_tensorize_partial C52_rejects C52_single C52_single_false C52_types_unchecked",
      "Full characterisation of the result and of the rejected inputs. The directions of the result are sorted as soon as there are two "
      "arguments; a single argument is returned as it is, hence the claim fails for one unsorted argument (C52_single_false).")
claim("C53", "proved", "C53_project C53_project_rejects C53_project_tensorize C53_project_tensorize_eq C53_project_tensorize_close C53_tensorize_project",
      "Exact equality for exactly diagonal positions with sorted directions; equality in the sense of __eq__ when the off-diagonal part is "
      "below the tolerance.")
claim("C54", "partial", "C54_weight C54_product_partial C54_mixture C54_false",
      "weight() normalises with (2 pi)^dim: the claim holds for Hermite directions only or Fourier directions only, and fails for every "
      "mixture (C54_mixture).")

claim("C55", "proved", "C55_subdegree C55_refused C55_compose", "sizes for which the constructor recovers the index set from the number of coefficients")
claim("C56", "partial", "C56_subdegree_partial C56_too_high C56_cross_nc_false",
      "proved for the index sets whose listing is nested; for cross_nc the method neither raises nor returns the right entries (C56_cross_nc_false)")
claim("C57", "partial", "C57_series_partial C57_series_factor_one C57_series_factor_lost C57_false C57_varf C57_rejects C57_zero_throws",
      "Varf in full; Series keeps the coefficients but drops the factor, so the claim holds for the factor one only")

claim("C58", "partial", "C58_value C58_to_function_partial C58_variance_false C58_factor_false C58_fourier_false",
      "the value computed by to_function is determined for all series; it is the value of the series for unit variances, Hermite directions and factor one, and differs otherwise (three witnesses)")
claim("C60", "partial", "C60_series_scalar C60_series_partial C60_series_rejects C60_degrees C60_false C60_varf_scalar C60_varf_partial C60_varf_rejects C60_varf_degrees",
      "entrywise for equal degrees; different positions, index sets and factors rejected; different degrees are accepted when one operand has a single coefficient (numpy broadcasting)")
claim("C61", "proved", "C61_call C61_rejects", "square matrices; products of real numbers")

claim("C59", "proved", "C59_split C59_raises C59_nonlinear_unchecked", "expanded linear expressions with nonzero summands; sympy's expand, diff and simplify as their mathematical meaning")

claim("C47", "partial", "C47_separated_partial C47_partial C47_false C47_names_false C47_unsupported_false",
      "False as stated: f(-1) then f(-2) returns -1 twice with the cache on, whatever md5. Proved for all histories in which calls sharing a file name have the same result, and for functions of distinct names called with comparable arguments unless byte strings of the history collide under md5.")
claim("C48", "partial", "C48_partial C48_names C48_false C48_modulus_false C48_float_false C48_types_false C48_arrays_false C48_keyword_false C48_extend_false",
      "False as stated: -1 and -2, 1 and True and '1', arrays of different shapes, lists and tuples share keys. Proved for calls comparable argument by argument, unless two of the byte strings hashed collide under md5.")


claim("C63", "partial", "C63_init_partial C63_rejects C63_mean_only_false",
      "consistent arguments are accepted and completed, others rejected; but mean or covariance alone raise instead of defaulting to the first directions")
claim("C64", "partial", "C64_integrate_partial C64_direct C64_sum_factor C64_coordinate_false C64_weights_false",
      "functions whose directions are those of the quadrature. For fewer directions the claim is false: tensorized integration leaves out the weights of the other directions, direct integration evaluates at the wrong coordinates. If the factor is a sum, tensorized integration raises.")

claim("C65", "partial", "C65_eval_partial C65_types_ignored C65_types_false C65_correlated_false",
      "same directions and types, diagonal covariances. False if the types differ (they are ignored) and for correlated directions (eval raises because the matrices are multiplied entrywise).")
claim("C66", "proved", "C66_transform C66_round_trip",
      "diagonal covariance with positive variances; the rule is orthonormal up to the degree and the factor has no zero on the grid")


claim("C67", "proved", "C67_tensorize C67_disjoint C67_full C67_scalar C67_rejects",
      "series whose factors are products which the common directions split; positions diagonal, means and variances equal on common directions (the code does not compare types, and neither does the theorem)")
claim("C68", "partial", "C68_tensorize_partial C68_direct C68_sum_factor C68_zero_false C68_high_degree_false C68_high_degree_cross C68_dim5_undefined",
      "sizes for which the library recovers the degree from the number of coefficients (all sets up to 4 directions and degree 250, usableTo_small; crosses beyond, usableTo_cross; the search in the code stops at 250), the factor one product without zeros on the grid. With zeros on the grid the claim is false (division guard applied per block); for degrees above 250 the process exits with code 0 after the computation (up to 4 directions), for the cross memory is read past the end of a listing; triangles and cubes in five and more directions are undefined; if the factor is a sum, the tensorized transform raises.")
claim("C69", "partial", "C69_tensorize_partial C69_single C69_refused C69_overlap_false C69_project_false",
      "pairwise disjoint directions in increasing order. With shared directions nothing is checked: of two forms with the same directions the last one wins, the directions vanish from the position, and the matrix is taken for one of another degree. Varf.project raises for any direction. A single form keeps its storage.")
claim("C70", "partial", "C70_direct_partial C70_tensorize_partial C70_agree_partial C70_sum_factor C70_cross_false C70_high_degree_false",
      "sizes for which the library recovers the degree (see C68), the index set for twice the degree fits in the computed types, the factor one product; the index set represents products (directly: in all directions, tensorized: in each block) and no coefficient is below the tolerance (otherwise see the error bounds of C98). False for the crosses: directly the entry is 0, tensorized it is the quadrature; and for degrees above 250 (one direction), where the process exits with code 0.")
claim("C71", "partial", "C71_direct_partial C71_tensorize_partial C71_agree_partial C71_filter C71_throws C71_sum_factor C71_outside_false C71_triangle C71_high_degree_false",
      "sizes for which the library recovers the degree (see C68), the index set for twice the degree fits in the computed types, positive variances, tensorized: the factor one product; the index set represents products and the derivatives (directly: in all directions, tensorized: in each block), and no coefficient is below the tolerance (otherwise see the error bounds of C98). False for directions that do not belong to the quadrature, which are ignored, and for degrees above 250 (one direction), where the process exits with code 0.")
claim("C72", "partial", "C72_direct_partial C72_tensorize_partial C72_directions C72_order C72_high_degree_false",
      "as C71, for each coefficient of the operator. For degrees above 250 in one direction the process exits with code 0. Operators mapped by the factor of the quadrature are in C76.")
claim("C73", "partial", "C73_project_partial C73_coef_partial C73_mean_partial C73_rejects C73_product C73_false",
      "no factor couples the directions to others; diagonal positions. False for coupling factors when several directions are kept: the coupling factor is dropped without an error. For the rectangle without its lowest direction, coefficients outside the index set of the series are zero.")
claim("C74", "partial", "C74_tensorize_partial C74_integral_partial C74_integrate_partial C74_project_partial C74_reassemble_partial C74_points C74_shared C74_empty",
      "diagonal positions and fewer than 2^32 grid points; for projections, factors which are single products.")
claim("C75", "partial", "C75_solve C75_inverse C75_remove_partial C75_remove_symmetric_partial C75_remove0_partial C75_constrained_partial C75_rejects C75_remove_rejects C75_float C75_gmres_false C75_remove_false C75_factor_false",
      "the linear solver of the library is exact; remove_vec has position and factor of the form, with diagonal covariance and a product as factor; for remove0, the eigenvector that the library returns spans the kernel (complex eigenvectors: C93_remove0).")
claim("C76", "partial", "C76_add C76_sub C76_neg C76_mul C76_compose C76_apply C76_apply_expr C76_map C76_map_order C76_map_compose C76_map_value C76_add_zero C76_rejects C76_call_zero C76_call_dirs C76_discretize_partial C76_discretize_tensorize_partial C76_discretize_rejects C76_smooth_partial",
      "expressions which are linear in the unknown function, up to equality of functions (sympy decides equality and normal forms); the statements on operators are full, those on discretize_op have the bounds and exactness conditions of C71 (with dropped coefficients: C98_mapped).")
claim("C77", "proved", "C77_forward_backward C77_map_operator C77_fokker_planck_kernel C77_fokker_planck_mass C77_fokker_planck_adjoint C77_overdamped_reversible C77_fokker_planck_schrodinger C77_schrodinger_symmetric C77_mv_white C77_line_sde C77_mv_mass C77_mv_kernel C77_mv_sde C77_langevin_forward C77_langevin_adjoint C77_langevin_backward C77_langevin_sde C77_harmonic_mass C77_harmonic_kernel C77_harmonic_sde C77_gle_none C77_gle_one C77_gle_two C77_gle_sde C77_gle_rejects",
      "smooth functions with compact support as test functions; parameters are real numbers. The number coeff_noise of McKean_Vlasov is a parameter; solve_gaussian is C90.")

claim("C78", "partial", "C78_gauss_hermite_partial C78_fourier_partial C78_fourier_position C78_fourier_position_false C78_fourier_points_false C78_gauss_points_false C78_newton_cotes_partial C78_newton_cotes_error_partial C78_newton_cotes_box C78_newton_cotes_rejects",
      "numpy's hermegauss is assumed to be the Gauss rule (by C83_iff: the zeros of the Hermite polynomial with the well-known weights). Proved for the same number of points in each direction; different numbers raise (C78_fourier_points_false, C78_gauss_points_false). Quad.fourier with a position of several directions and an integer number of points builds a one-dimensional rule on which integrate is undefined (C78_fourier_position_false). newton_cotes: the product of the trapezoidal rules, with error bounds in one direction and in several (C78_newton_cotes_box). Correlated covariances: C96.")
claim("C79", "partial", "C79_flat C79_flat_fourier C79_flat_gauss C79_flat_tensorize_partial C79_mixture_false C79_norm_values C79_norm_expr C79_norm_rejects C79_parseval C79_series C79_series_mean",
      "diagonal positions with positive variances. On mixtures of Hermite and other directions the flat integral is too large by sqrt(2 pi) for each of the others (C79_flat) and depends on tensorize (C79_mixture_false); with tensorize: factors which do not couple Hermite with other directions. norm raises for Function and str and returns None for other n (C79_norm_rejects).")
claim("C80", "partial", "C80_spectrum_partial C80_gauss_hermite_partial C80_fokker_planck_partial C80_fourier_partial C80_kept C80_fourier_kept C80_vanish C80_small_false C80_mapped_kept C80_fokker_planck_kept C80_fokker_planck_false",
      "sizes for which the library recovers the degree (see C68), diagonal positions with positive variances; rates for which discretize_op drops no coefficient of the generator as negligible (its threshold is 1e-12; C80_kept, C80_mapped_kept, C80_fourier_kept and C80_fokker_planck_kept say for all rates which terms are left; C80_small_false is a generator that becomes zero, C80_fokker_planck_false one that is not diagonal); sets which contain what products and derivatives need (triangles and cubes for gauss_hermite, cubes of even degree for fourier).")
claim("C81", "partial", "C81_position C81_reflexive C81_series_symmetric C81_varf_symmetric C81_quad_symmetric C81_series_partial C81_series_coef C81_series_value C81_series_degrees C81_varf_partial C81_varf_degrees C81_quad_partial C81_quad_points C81_broadcast_false C81_index_set_false C81_transitive_false C81_factor_false C81_quad_false",
      "for objects of the same degree and index set. Between different degrees or numbers of points the comparison raises or, if one has a single entry, broadcasts it (C81_broadcast_false, C81_quad_false); index sets are not compared (C81_index_set_false), nor are factors of forms (C81_factor_false); the comparison is not transitive (C81_transitive_false).")
claim("C82", "partial", "C82_init C82_init_rejects C82_integrate C82_integrate_function C82_exact C82_gauss C82_varf C82_varf_function C82_varf_rejects C82_transform_false C82_project_false C82_eq_partial C82_eq_quad_partial C82_eq_false C82_varfd_false C82_discretize_op_false",
      "the methods transform and project always raise (C82_transform_false, C82_project_false), and the weights are not compared (C82_eq_false). varf: sizes for which the library recovers the degree (see C68), same factors, no dropped coefficients (see C70; otherwise C98_comp). varfd and discretize_op raise because of wrong argument names (C82_varfd_false, C82_discretize_op_false).")
claim("C83", "proved", "C83_exists_unique C83_unique C83_nodes C83_weights C83_iff C83_symmetric C83_sharp C83_bounds",
      "in exact arithmetic. C83_bounds: the same number of points in each direction, fewer than 2^32 grid points.")
claim("C84", "partial", "C84_to_cpp_array C84_to_cpp_array_rejects C84_empty_rejected C84_iterators C84_iterator_index_partial C84_iterator_index_false C84_iterators_unknown C84_tensorize_numbers C84_tensorize_vectors C84_sparse_vectors_false C84_tensorize_matrices C84_shortcut C84_list_vectors C84_list_matrices C84_list_sparse C84_list_mixed C84_dict_mixed C84_tensorize_rejects C84_single_vector C84_single_matrix C84_project_vector C84_project_matrix_partial C84_inner C84_unknown_exits",
      "false as stated: unknown names terminate the process (C84_unknown_exits), iterator_index knows two of the five sets (C84_iterator_index_false), lists do not mix dense and sparse matrices (C84_list_mixed), vectors have no sparse product (C84_sparse_vectors_false), sparse matrices with repeated entries are projected wrongly (C43_repeated_false).")
claim("C85", "partial", "C85_default C85_calls C85_forward C85_backward C85_integrate_default_undefined C85_varf C85_varfd_hermite_partial C85_varfd_fourier_partial C85_chain C85_rejects C85_unknown_exits",
      "false as stated: integrate without do_fourier is undefined behaviour (C85_integrate_default_undefined), unknown names terminate the process (C85_unknown_exits). Missing in varfd: dense matrices with 2^32 entries or more, sparse ones with repeated entries, non-contiguous arrays (C44), sets without the partners of sines (C40).")
claim("C86", "proved", "C86_gauss C86_gauss_smooth C86_fourier C86_fourier_series",
      "hermegauss is assumed to be the Gauss rule; the same number of points in each direction, fewer than 2^32 grid points; exact arithmetic. The Fourier rule gives the integral over the box rescaled to [-pi, pi] in each direction, as in C78.")
claim("C87", "partial", "C87_function_curve C87_function_surface C87_series_curve C87_series_surface C87_hf_curve C87_hf_surface C87_turning C87_sum_false C87_coupled_false C87_dimension C87_hf_odd_false C87_factor_false",
      "Proved for quadratures whose factor is a single product with no part that couples the directions (the axes are found by projecting the quadrature, which raises an exception otherwise: C87_sum_false, C87_coupled_false), on one or two directions (C87_dimension); for plot_hf, the sum of the multi-index is even if there is a Fourier direction (C87_hf_odd_false). A factor as array, or with a function, raises an exception. The matplotlib calls are represented by the data they are given.")
claim("C88", "partial", "C88_streams C88_differences C88_accuracy C88_levels C88_levels_false C88_functions_false C88_directions_false",
      "Proved for series on the directions 0 and 1. False for expressions and functions, of which nothing is drawn (unbound variables), for other directions, and for the levels of constant stream functions.")
claim("C89", "partial", "C89_value C89_dirs C89_dim C89_free C89_rejects C89_rejects_dependence C89_arithmetic C89_arithmetic_rejects C89_operand C89_as_xyz C89_round_trip C89_negative_accepted C89_repeated_accepted C89_copy_false C89_ccode C89_ccode_false C89_sanitize_error C89_sanitize_recovers C89_sanitize_idempotent C89_sanitize_threshold C89_sanitize_drops",
      "Proved under the laws of sympy's operations in SymLaws (satisfied by FinExpr). False: negative directions and repeated ones are accepted (C89_negative_accepted, C89_repeated_accepted), and directions given for a Function are ignored (C89_copy_false); ccode changes other identifiers that begin with a variable, like x10 (C89_ccode_false); sanitize drops coefficients up to 5e-9 (C89_sanitize_drops), its threshold has no effect (C89_sanitize_threshold).")
claim("C90", "proved", "C90_normal C90_kernel C90_density C90_unique C90_found C90_offset C90_backward C90_fokker_planck C90_mv_white C90_mv C90_harmonic C90_langevin C90_langevin_backward C90_solver C90_unstable",
      "The solver is a parameter with the contracts Roots and Finds (satisfied by some solver: C90_solver). For unstable drifts, where there is no stationary distribution, an imaginary or an unbounded function is returned without a message (C90_unstable).")
claim("C91", "proved", "C91_exact C91_binary C91_size C91_hermite_eval C91_forward C91_backward C91_integrate C91_integrate_bounded C91_inner C91_tensorize",
      "The operations are evaluated as written; reassociation allowed by -Ofast is not modelled, overflow and underflow are excluded by the standard model.")
claim("C92", "partial", "C92_detects_partial C92_accepts C92_fresh C92_transparent_partial C92_stale_partial C92_confirms C92_quiet C92_sparse_false C92_axes_false C92_shape_false",
      "Proved for results of the same kind and shape, and for sparse matrices with the same places. False otherwise: sparse matrices are compared without their places and shapes (C92_sparse_false), vectors with numbers of any shape that broadcasts (C92_shape_false), and results with three or more axes always raise (C92_axes_false).")
claim("C93", "proved", "C93_eigs C93_real C93_nearly_real C93_remove0 C93_remove0_singular C93_remove0_rejects C93_uncached",
      "The library routines are parameters, assumed exact: eigenvectors of length one, solutions of nonsingular systems. remove0 is right for real and complex eigenvectors of a kernel spanned by one function; if the eigenvalue found is not zero, the system may be singular (C93_remove0_singular).")
claim("C94", "partial", "C94_dense C94_sparse_partial C94_sparse_false C94_lines C94_lines_degree C94_lines_cross C94_lines_false C94_series_line C94_series_plane C94_series_false C94_nodes_text C94_nodes_false",
      "False for sparse forms with entries that are not above 1e-9: the stored values are taken with their signs (C94_sparse_false). The lines are right for the triangle, the cube, the rectangle and (with one more line) the cross, but not for cross_nc (C94_lines_false). In three directions or more Series.plot raises or draws nothing (C94_series_false). mapped_nodes never works (C94_nodes_false, for a compiler that rejects unknown names).")
claim("C95", "proved", "C95_exact C95_binary C95_hermite_table C95_fourier_table C95_varf C95_quadrature C95_symmetric",
      "The operations are evaluated as written; reassociation allowed by -Ofast is not modelled, overflow and underflow are excluded by the standard model. Adding zero and multiplying by zero are taken to be exact, signs and comparisons too.")
claim("C96", "partial", "C96_density C96_weight C96_orthonormal C96_factor_partial C96_discretize C96_tensorize C96_gauss_hermite_partial C96_rule C96_covariance C96_transform_partial C96_repeated_false",
      "numpy's hermegauss is assumed to be the Gauss rule, eig to return unit and linearly independent eigenvectors. Proved for distinct eigenvalues and for orthonormal eigenvectors. For repeated eigenvalues numpy.linalg.eig does not promise orthogonal eigenvectors; without them the quadrature has a wrong covariance matrix (C96_rule says which, C96_repeated_false gives a case). Positions with Hermite directions only.")
claim("C97", "proved", "C97_exact C97_hermite C97_fourier C97_dense C97_form_hermite C97_form_fourier C97_discretize C97_values",
      "The assumptions on the arithmetic are those of C95. The variant of varfd for nested vectors is wrong in Fourier directions even without rounding (C41_fourier_false) and is bounded in Hermite directions only. The points returned by map_point are compared with the affine map of the stored nodes, translation and dilation.")
claim("C98", "proved", "C98_varf C98_small C98_varfd C98_op C98_tensorize C98_varfd_tensorize C98_op_tensorize C98_mapped C98_comp",
      "In exact arithmetic. The index set must contain what products of two basis functions need (C35_closed says for which sets this holds; C70_cross_false is a set for which it does not). With tensorize the blocks are truncated one by one and the errors propagate as in a product (C98_tensorize, C98_varfd_tensorize and C98_op_tensorize; the last for an operator that is not zero).")


if __name__ == "__main__":
    root = os.path.dirname(os.path.dirname(os.path.abspath(__file__)))
    with open(os.path.join(root, "MANIFEST.json"), "w") as f:
        json.dump({"claims": [CLAIMS[k] for k in sorted(CLAIMS)]}, f, indent=1)
        f.write("\n")
