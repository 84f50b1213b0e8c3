import Verif.Props.Arithmetic
import Verif.Props.Blocks
import Verif.Props.Cache
import Verif.Props.CacheError
import Verif.Props.CompQuad
import Verif.Props.Converters
import Verif.Props.Core
import Verif.Props.CoreForms
import Verif.Props.Correlated
import Verif.Props.DegreeExit
import Verif.Props.DegreeExitArrays
import Verif.Props.DegreeExitObject
import Verif.Props.Discretize
import Verif.Props.DiscretizeMap
import Verif.Props.DiscretizeOp
import Verif.Props.DropError
import Verif.Props.DropErrorBlocks
import Verif.Props.DropErrorMap
import Verif.Props.Eigs
import Verif.Props.Equality
import Verif.Props.Equations
import Verif.Props.FinestCommon
import Verif.Props.Function
import Verif.Props.FunctionObject
import Verif.Props.GaussRule
import Verif.Props.IndexSets
import Verif.Props.Inner
import Verif.Props.NewtonCotes
import Verif.Props.Operator
import Verif.Props.OperatorAlgebra
import Verif.Props.Orthonormal
import Verif.Props.Pictures
import Verif.Props.Plot
import Verif.Props.Position
import Verif.Props.PositionInit
import Verif.Props.QuadConstructors
import Verif.Props.QuadErrors
import Verif.Props.QuadEval
import Verif.Props.QuadIntegrate
import Verif.Props.QuadNorm
import Verif.Props.QuadProduct
import Verif.Props.QuadTransform
import Verif.Props.QuadVarf
import Verif.Props.QuadVarfd
import Verif.Props.RoundedVarf
import Verif.Props.RoundedVarfd
import Verif.Props.Rounding
import Verif.Props.Series
import Verif.Props.SeriesProject
import Verif.Props.SeriesTensorize
import Verif.Props.Solve
import Verif.Props.SolveGaussian
import Verif.Props.Sparse
import Verif.Props.Spectrum
import Verif.Props.SpectrumKept
import Verif.Props.SpectrumKeptLine
import Verif.Props.Stats
import Verif.Props.Streams
import Verif.Props.ToCross
import Verif.Props.ToFunction
import Verif.Props.Transform
import Verif.Props.Triple
import Verif.Props.Varf
import Verif.Props.VarfProduct
import Verif.Props.VarfTensorize
import Verif.Props.Varfd

/-! The axioms of every theorem in `MANIFEST.json`. Generated by `tools/gen_axioms.py`. -/

#print axioms Hermipy.Props.C01_triangle_listing
#print axioms Hermipy.Props.C02_cube_listing
#print axioms Hermipy.Props.C03_rectangle_listing
#print axioms Hermipy.Props.C04_cross_listing
#print axioms Hermipy.Props.C05_cross_nc_listing
#print axioms Hermipy.Props.C06_size
#print axioms Hermipy.Props.C06_closed_forms
#print axioms Hermipy.Props.C07_prefix
#print axioms Hermipy.Props.C07_cross_nc_not_prefix
#print axioms Hermipy.Props.C08_triangle_index
#print axioms Hermipy.Props.C09_cube_index_partial
#print axioms Hermipy.Props.C09_zero_undefined
#print axioms Hermipy.Props.C10_degree_of_size_partial
#print axioms Hermipy.Props.C10_degree_of_size_general_partial
#print axioms Hermipy.Props.C10_dim5_undefined
#print axioms Hermipy.Props.C10_rectangle_dim8
#print axioms Hermipy.Props.C10_cross_zero
#print axioms Hermipy.Props.C10_cross_nc_one
#print axioms Hermipy.Props.C11_sound_partial
#print axioms Hermipy.Props.C11_cross_invents
#print axioms Hermipy.Props.C11_exit_code
#print axioms Hermipy.Props.C11_high_degree_false
#print axioms Hermipy.Props.C11_cross_range
#print axioms Hermipy.Props.C11_series_exits
#print axioms Hermipy.Props.C11_dim5_series
#print axioms Hermipy.Props.C12_lookup
#print axioms Hermipy.Props.C12_keys
#print axioms Hermipy.Props.C13_protocol
#print axioms Hermipy.Props.C14_grid
#print axioms Hermipy.Props.C14_conditions
#print axioms Hermipy.Props.C15_project_vec
#print axioms Hermipy.Props.C15_increasing_dirs
#print axioms Hermipy.Props.usable_up_to_dim_four
#print axioms Hermipy.Props.C15_C21_dim5_undefined
#print axioms Hermipy.Props.C15_C21_exits
#print axioms Hermipy.Props.C16_project_mat
#print axioms Hermipy.Props.C16_dense_and_sparse
#print axioms Hermipy.Props.C17_tensorize_vec
#print axioms Hermipy.Props.C17_vec_id
#print axioms Hermipy.Props.C18_tensorize_mats
#print axioms Hermipy.Props.C18_dense_and_sparse
#print axioms Hermipy.Props.C18_mat_id
#print axioms Hermipy.Props.C19_vec_order
#print axioms Hermipy.Props.C19_mat_order
#print axioms Hermipy.Props.C20_project_tensorize_partial
#print axioms Hermipy.Props.C20_project_tensorize_mat_partial
#print axioms Hermipy.Props.C20_vec_id_partial
#print axioms Hermipy.Props.C20_rectangle_loses
#print axioms Hermipy.Props.C21_inner
#print axioms Hermipy.Props.C22_dot
#print axioms Hermipy.Props.C22_tensor
#print axioms Hermipy.Props.C22_project
#print axioms Hermipy.Props.C23_inner_symm
#print axioms Hermipy.Props.C24_hermite_eval_partial
#print axioms Hermipy.Props.C24_degree_zero_undefined
#print axioms Hermipy.Props.C24_degree_zero_slack
#print axioms Hermipy.Props.C25_orthonormal
#print axioms Hermipy.Props.C25_computed
#print axioms Hermipy.Props.C26_forward
#print axioms Hermipy.Props.C26_backward
#print axioms Hermipy.Props.C26_cross_zero_undefined
#print axioms Hermipy.Props.C27_transform_product
#print axioms Hermipy.Props.C28_round_trip
#print axioms Hermipy.Props.C28_exact_rule
#print axioms Hermipy.Props.C29_forward_linear
#print axioms Hermipy.Props.C29_backward_linear
#print axioms Hermipy.Props.C29_adjoint
#print axioms Hermipy.Props.C30_fourier_rule
#print axioms Hermipy.Props.C30_transform_exact
#print axioms Hermipy.Props.C30_sharp
#print axioms Hermipy.Props.C31_integrate_partial
#print axioms Hermipy.Props.C31_hermite_undefined
#print axioms Hermipy.Props.C32_transform_odd
#print axioms Hermipy.Props.C32_triple_odd
#print axioms Hermipy.Props.C32_varf_odd
#print axioms Hermipy.Props.C32_empty_direction
#print axioms Hermipy.Props.C33_hermite_table
#print axioms Hermipy.Props.C33_hermite_linearise
#print axioms Hermipy.Props.C34_fourier_table
#print axioms Hermipy.Props.C34_fourier_linearise
#print axioms Hermipy.Props.C35_entries_partial
#print axioms Hermipy.Props.C35_exact
#print axioms Hermipy.Props.C35_error
#print axioms Hermipy.Props.C35_closed
#print axioms Hermipy.Props.C35_cross_zero
#print axioms Hermipy.Props.C35_cross_false
#print axioms Hermipy.Props.C35_C36_fourier_false
#print axioms Hermipy.Props.C35_rectangle_false
#print axioms Hermipy.Props.C36_symmetric
#print axioms Hermipy.Props.C36_nonneg_partial
#print axioms Hermipy.Props.C37_varf_product_partial
#print axioms Hermipy.Props.C37_false
#print axioms Hermipy.Props.C38_varf
#print axioms Hermipy.Props.C38_varfd_hermite
#print axioms Hermipy.Props.C38_varfd_fourier_partial
#print axioms Hermipy.Props.C38_varfd_fourier_false
#print axioms Hermipy.Props.C39_entries
#print axioms Hermipy.Props.C39_form
#print axioms Hermipy.Props.C40_entries_partial
#print axioms Hermipy.Props.C40_form
#print axioms Hermipy.Props.C40_returns_iff
#print axioms Hermipy.Props.C40_closed
#print axioms Hermipy.Props.C40_throws
#print axioms Hermipy.Props.C41_hermite
#print axioms Hermipy.Props.C41_fourier_partial
#print axioms Hermipy.Props.C41_fourier_false
#print axioms Hermipy.Props.C42_commute
#print axioms Hermipy.Props.C42_commute_mixed
#print axioms Hermipy.Props.C43_dense_sparse_dense
#print axioms Hermipy.Props.C43_empty_undefined
#print axioms Hermipy.Props.C43_triples
#print axioms Hermipy.Props.C43_to_csr
#print axioms Hermipy.Props.C43_from_csr_partial
#print axioms Hermipy.Props.C43_csr_last
#print axioms Hermipy.Props.C43_repeated_false
#print axioms Hermipy.Props.C43_sparse_csr_sparse
#print axioms Hermipy.Props.C43_csr_sparse_csr_partial
#print axioms Hermipy.Props.C44_to_boost_mat_partial
#print axioms Hermipy.Props.C44_to_bmat_partial
#print axioms Hermipy.Props.C44_to_mat_partial
#print axioms Hermipy.Props.C44_boost_reads_outside
#print axioms Hermipy.Props.C44_boost_wrong
#print axioms Hermipy.Props.C44_to_mat_shape
#print axioms Hermipy.Props.C44_slice_false
#print axioms Hermipy.Props.C44_not_contiguous
#print axioms Hermipy.Props.C44_to_numpy
#print axioms Hermipy.Props.C44_square_round_trip
#print axioms Hermipy.Props.C45_discretize
#print axioms Hermipy.Props.C45_transform
#print axioms Hermipy.Props.C45_no_direction
#print axioms Hermipy.Props.C46_function_partial
#print axioms Hermipy.Props.C46_collision
#print axioms Hermipy.Props.C46_collision_value
#print axioms Hermipy.Props.C46_compile_failure
#print axioms Hermipy.Props.C47_separated_partial
#print axioms Hermipy.Props.C47_partial
#print axioms Hermipy.Props.C47_false
#print axioms Hermipy.Props.C47_names_false
#print axioms Hermipy.Props.C47_unsupported_false
#print axioms Hermipy.Props.C48_partial
#print axioms Hermipy.Props.C48_names
#print axioms Hermipy.Props.C48_false
#print axioms Hermipy.Props.C48_modulus_false
#print axioms Hermipy.Props.C48_float_false
#print axioms Hermipy.Props.C48_types_false
#print axioms Hermipy.Props.C48_arrays_false
#print axioms Hermipy.Props.C48_keyword_false
#print axioms Hermipy.Props.C48_extend_false
#print axioms Hermipy.Props.C49_finest_common
#print axioms Hermipy.Props.C49_order_irrelevant
#print axioms Hermipy.Props.C49_symm
#print axioms Hermipy.Props.C50_split
#print axioms Hermipy.Props.C50_order
#print axioms Hermipy.Props.C50_legacy
#print axioms Hermipy.Props.C51_project_partial
#print axioms Hermipy.Props.C51_single
#print axioms Hermipy.Props.C51_raises_iff
#print axioms Hermipy.Props.C51_blocks
#print axioms Hermipy.Props.C51_false
#print axioms Hermipy.Props.C52_tensorize_partial
#print axioms Hermipy.Props.C52_rejects
#print axioms Hermipy.Props.C52_single
#print axioms Hermipy.Props.C52_single_false
#print axioms Hermipy.Props.C52_types_unchecked
#print axioms Hermipy.Props.C53_project
#print axioms Hermipy.Props.C53_project_rejects
#print axioms Hermipy.Props.C53_project_tensorize
#print axioms Hermipy.Props.C53_project_tensorize_eq
#print axioms Hermipy.Props.C53_project_tensorize_close
#print axioms Hermipy.Props.C53_tensorize_project
#print axioms Hermipy.Props.C54_weight
#print axioms Hermipy.Props.C54_product_partial
#print axioms Hermipy.Props.C54_mixture
#print axioms Hermipy.Props.C54_false
#print axioms Hermipy.Props.C55_subdegree
#print axioms Hermipy.Props.C55_refused
#print axioms Hermipy.Props.C55_compose
#print axioms Hermipy.Props.C56_subdegree_partial
#print axioms Hermipy.Props.C56_too_high
#print axioms Hermipy.Props.C56_cross_nc_false
#print axioms Hermipy.Props.C57_series_partial
#print axioms Hermipy.Props.C57_series_factor_one
#print axioms Hermipy.Props.C57_series_factor_lost
#print axioms Hermipy.Props.C57_false
#print axioms Hermipy.Props.C57_varf
#print axioms Hermipy.Props.C57_rejects
#print axioms Hermipy.Props.C57_zero_throws
#print axioms Hermipy.Props.C58_value
#print axioms Hermipy.Props.C58_to_function_partial
#print axioms Hermipy.Props.C58_variance_false
#print axioms Hermipy.Props.C58_factor_false
#print axioms Hermipy.Props.C58_fourier_false
#print axioms Hermipy.Props.C59_split
#print axioms Hermipy.Props.C59_raises
#print axioms Hermipy.Props.C59_nonlinear_unchecked
#print axioms Hermipy.Props.C60_series_scalar
#print axioms Hermipy.Props.C60_series_partial
#print axioms Hermipy.Props.C60_series_rejects
#print axioms Hermipy.Props.C60_degrees
#print axioms Hermipy.Props.C60_false
#print axioms Hermipy.Props.C60_varf_scalar
#print axioms Hermipy.Props.C60_varf_partial
#print axioms Hermipy.Props.C60_varf_rejects
#print axioms Hermipy.Props.C60_varf_degrees
#print axioms Hermipy.Props.C61_call
#print axioms Hermipy.Props.C61_rejects
#print axioms Hermipy.Props.C62_indent
#print axioms Hermipy.Props.C62_no_exception_partial
#print axioms Hermipy.Props.C62_indent_iff
#print axioms Hermipy.Props.C62_log
#print axioms Hermipy.Props.C62_false
#print axioms Hermipy.Props.C63_init_partial
#print axioms Hermipy.Props.C63_rejects
#print axioms Hermipy.Props.C63_mean_only_false
#print axioms Hermipy.Props.C64_integrate_partial
#print axioms Hermipy.Props.C64_direct
#print axioms Hermipy.Props.C64_sum_factor
#print axioms Hermipy.Props.C64_coordinate_false
#print axioms Hermipy.Props.C64_weights_false
#print axioms Hermipy.Props.C65_eval_partial
#print axioms Hermipy.Props.C65_types_ignored
#print axioms Hermipy.Props.C65_types_false
#print axioms Hermipy.Props.C65_correlated_false
#print axioms Hermipy.Props.C66_transform
#print axioms Hermipy.Props.C66_round_trip
#print axioms Hermipy.Props.C67_tensorize
#print axioms Hermipy.Props.C67_disjoint
#print axioms Hermipy.Props.C67_full
#print axioms Hermipy.Props.C67_scalar
#print axioms Hermipy.Props.C67_rejects
#print axioms Hermipy.Props.C68_tensorize_partial
#print axioms Hermipy.Props.C68_direct
#print axioms Hermipy.Props.C68_sum_factor
#print axioms Hermipy.Props.C68_zero_false
#print axioms Hermipy.Props.C68_high_degree_false
#print axioms Hermipy.Props.C68_high_degree_cross
#print axioms Hermipy.Props.C68_dim5_undefined
#print axioms Hermipy.Props.C69_tensorize_partial
#print axioms Hermipy.Props.C69_single
#print axioms Hermipy.Props.C69_refused
#print axioms Hermipy.Props.C69_overlap_false
#print axioms Hermipy.Props.C69_project_false
#print axioms Hermipy.Props.C70_direct_partial
#print axioms Hermipy.Props.C70_tensorize_partial
#print axioms Hermipy.Props.C70_agree_partial
#print axioms Hermipy.Props.C70_sum_factor
#print axioms Hermipy.Props.C70_cross_false
#print axioms Hermipy.Props.C70_high_degree_false
#print axioms Hermipy.Props.C71_direct_partial
#print axioms Hermipy.Props.C71_tensorize_partial
#print axioms Hermipy.Props.C71_agree_partial
#print axioms Hermipy.Props.C71_filter
#print axioms Hermipy.Props.C71_throws
#print axioms Hermipy.Props.C71_sum_factor
#print axioms Hermipy.Props.C71_outside_false
#print axioms Hermipy.Props.C71_triangle
#print axioms Hermipy.Props.C71_high_degree_false
#print axioms Hermipy.Props.C72_direct_partial
#print axioms Hermipy.Props.C72_tensorize_partial
#print axioms Hermipy.Props.C72_directions
#print axioms Hermipy.Props.C72_order
#print axioms Hermipy.Props.C72_high_degree_false
#print axioms Hermipy.Props.C73_project_partial
#print axioms Hermipy.Props.C73_coef_partial
#print axioms Hermipy.Props.C73_mean_partial
#print axioms Hermipy.Props.C73_rejects
#print axioms Hermipy.Props.C73_product
#print axioms Hermipy.Props.C73_false
#print axioms Hermipy.Props.C74_tensorize_partial
#print axioms Hermipy.Props.C74_integral_partial
#print axioms Hermipy.Props.C74_integrate_partial
#print axioms Hermipy.Props.C74_project_partial
#print axioms Hermipy.Props.C74_reassemble_partial
#print axioms Hermipy.Props.C74_points
#print axioms Hermipy.Props.C74_shared
#print axioms Hermipy.Props.C74_empty
#print axioms Hermipy.Props.C75_solve
#print axioms Hermipy.Props.C75_inverse
#print axioms Hermipy.Props.C75_remove_partial
#print axioms Hermipy.Props.C75_remove_symmetric_partial
#print axioms Hermipy.Props.C75_remove0_partial
#print axioms Hermipy.Props.C75_constrained_partial
#print axioms Hermipy.Props.C75_rejects
#print axioms Hermipy.Props.C75_remove_rejects
#print axioms Hermipy.Props.C75_float
#print axioms Hermipy.Props.C75_gmres_false
#print axioms Hermipy.Props.C75_remove_false
#print axioms Hermipy.Props.C75_factor_false
#print axioms Hermipy.Props.C76_add
#print axioms Hermipy.Props.C76_sub
#print axioms Hermipy.Props.C76_neg
#print axioms Hermipy.Props.C76_mul
#print axioms Hermipy.Props.C76_compose
#print axioms Hermipy.Props.C76_apply
#print axioms Hermipy.Props.C76_apply_expr
#print axioms Hermipy.Props.C76_map
#print axioms Hermipy.Props.C76_map_order
#print axioms Hermipy.Props.C76_map_compose
#print axioms Hermipy.Props.C76_map_value
#print axioms Hermipy.Props.C76_add_zero
#print axioms Hermipy.Props.C76_rejects
#print axioms Hermipy.Props.C76_call_zero
#print axioms Hermipy.Props.C76_call_dirs
#print axioms Hermipy.Props.C76_discretize_partial
#print axioms Hermipy.Props.C76_discretize_tensorize_partial
#print axioms Hermipy.Props.C76_discretize_rejects
#print axioms Hermipy.Props.C76_smooth_partial
#print axioms Hermipy.Props.C77_forward_backward
#print axioms Hermipy.Props.C77_map_operator
#print axioms Hermipy.Props.C77_fokker_planck_kernel
#print axioms Hermipy.Props.C77_fokker_planck_mass
#print axioms Hermipy.Props.C77_fokker_planck_adjoint
#print axioms Hermipy.Props.C77_overdamped_reversible
#print axioms Hermipy.Props.C77_fokker_planck_schrodinger
#print axioms Hermipy.Props.C77_schrodinger_symmetric
#print axioms Hermipy.Props.C77_mv_white
#print axioms Hermipy.Props.C77_line_sde
#print axioms Hermipy.Props.C77_mv_mass
#print axioms Hermipy.Props.C77_mv_kernel
#print axioms Hermipy.Props.C77_mv_sde
#print axioms Hermipy.Props.C77_langevin_forward
#print axioms Hermipy.Props.C77_langevin_adjoint
#print axioms Hermipy.Props.C77_langevin_backward
#print axioms Hermipy.Props.C77_langevin_sde
#print axioms Hermipy.Props.C77_harmonic_mass
#print axioms Hermipy.Props.C77_harmonic_kernel
#print axioms Hermipy.Props.C77_harmonic_sde
#print axioms Hermipy.Props.C77_gle_none
#print axioms Hermipy.Props.C77_gle_one
#print axioms Hermipy.Props.C77_gle_two
#print axioms Hermipy.Props.C77_gle_sde
#print axioms Hermipy.Props.C77_gle_rejects
#print axioms Hermipy.Props.C78_gauss_hermite_partial
#print axioms Hermipy.Props.C78_fourier_partial
#print axioms Hermipy.Props.C78_fourier_position
#print axioms Hermipy.Props.C78_fourier_position_false
#print axioms Hermipy.Props.C78_fourier_points_false
#print axioms Hermipy.Props.C78_gauss_points_false
#print axioms Hermipy.Props.C78_newton_cotes_partial
#print axioms Hermipy.Props.C78_newton_cotes_error_partial
#print axioms Hermipy.Props.C78_newton_cotes_box
#print axioms Hermipy.Props.C78_newton_cotes_rejects
#print axioms Hermipy.Props.C79_flat
#print axioms Hermipy.Props.C79_flat_fourier
#print axioms Hermipy.Props.C79_flat_gauss
#print axioms Hermipy.Props.C79_flat_tensorize_partial
#print axioms Hermipy.Props.C79_mixture_false
#print axioms Hermipy.Props.C79_norm_values
#print axioms Hermipy.Props.C79_norm_expr
#print axioms Hermipy.Props.C79_norm_rejects
#print axioms Hermipy.Props.C79_parseval
#print axioms Hermipy.Props.C79_series
#print axioms Hermipy.Props.C79_series_mean
#print axioms Hermipy.Props.C80_spectrum_partial
#print axioms Hermipy.Props.C80_gauss_hermite_partial
#print axioms Hermipy.Props.C80_fokker_planck_partial
#print axioms Hermipy.Props.C80_fourier_partial
#print axioms Hermipy.Props.C80_kept
#print axioms Hermipy.Props.C80_fourier_kept
#print axioms Hermipy.Props.C80_vanish
#print axioms Hermipy.Props.C80_small_false
#print axioms Hermipy.Props.C80_mapped_kept
#print axioms Hermipy.Props.C80_fokker_planck_kept
#print axioms Hermipy.Props.C80_fokker_planck_false
#print axioms Hermipy.Props.C81_position
#print axioms Hermipy.Props.C81_reflexive
#print axioms Hermipy.Props.C81_series_symmetric
#print axioms Hermipy.Props.C81_varf_symmetric
#print axioms Hermipy.Props.C81_quad_symmetric
#print axioms Hermipy.Props.C81_series_partial
#print axioms Hermipy.Props.C81_series_coef
#print axioms Hermipy.Props.C81_series_value
#print axioms Hermipy.Props.C81_series_degrees
#print axioms Hermipy.Props.C81_varf_partial
#print axioms Hermipy.Props.C81_varf_degrees
#print axioms Hermipy.Props.C81_quad_partial
#print axioms Hermipy.Props.C81_quad_points
#print axioms Hermipy.Props.C81_broadcast_false
#print axioms Hermipy.Props.C81_index_set_false
#print axioms Hermipy.Props.C81_transitive_false
#print axioms Hermipy.Props.C81_factor_false
#print axioms Hermipy.Props.C81_quad_false
#print axioms Hermipy.Props.C82_init
#print axioms Hermipy.Props.C82_init_rejects
#print axioms Hermipy.Props.C82_integrate
#print axioms Hermipy.Props.C82_integrate_function
#print axioms Hermipy.Props.C82_exact
#print axioms Hermipy.Props.C82_gauss
#print axioms Hermipy.Props.C82_varf
#print axioms Hermipy.Props.C82_varf_function
#print axioms Hermipy.Props.C82_varf_rejects
#print axioms Hermipy.Props.C82_transform_false
#print axioms Hermipy.Props.C82_project_false
#print axioms Hermipy.Props.C82_eq_partial
#print axioms Hermipy.Props.C82_eq_quad_partial
#print axioms Hermipy.Props.C82_eq_false
#print axioms Hermipy.Props.C82_varfd_false
#print axioms Hermipy.Props.C82_discretize_op_false
#print axioms Hermipy.Props.C83_exists_unique
#print axioms Hermipy.Props.C83_unique
#print axioms Hermipy.Props.C83_nodes
#print axioms Hermipy.Props.C83_weights
#print axioms Hermipy.Props.C83_iff
#print axioms Hermipy.Props.C83_symmetric
#print axioms Hermipy.Props.C83_sharp
#print axioms Hermipy.Props.C83_bounds
#print axioms Hermipy.Props.C84_to_cpp_array
#print axioms Hermipy.Props.C84_to_cpp_array_rejects
#print axioms Hermipy.Props.C84_empty_rejected
#print axioms Hermipy.Props.C84_iterators
#print axioms Hermipy.Props.C84_iterator_index_partial
#print axioms Hermipy.Props.C84_iterator_index_false
#print axioms Hermipy.Props.C84_iterators_unknown
#print axioms Hermipy.Props.C84_tensorize_numbers
#print axioms Hermipy.Props.C84_tensorize_vectors
#print axioms Hermipy.Props.C84_sparse_vectors_false
#print axioms Hermipy.Props.C84_tensorize_matrices
#print axioms Hermipy.Props.C84_shortcut
#print axioms Hermipy.Props.C84_list_vectors
#print axioms Hermipy.Props.C84_list_matrices
#print axioms Hermipy.Props.C84_list_sparse
#print axioms Hermipy.Props.C84_list_mixed
#print axioms Hermipy.Props.C84_dict_mixed
#print axioms Hermipy.Props.C84_tensorize_rejects
#print axioms Hermipy.Props.C84_single_vector
#print axioms Hermipy.Props.C84_single_matrix
#print axioms Hermipy.Props.C84_project_vector
#print axioms Hermipy.Props.C84_project_matrix_partial
#print axioms Hermipy.Props.C84_inner
#print axioms Hermipy.Props.C84_unknown_exits
#print axioms Hermipy.Props.C85_default
#print axioms Hermipy.Props.C85_calls
#print axioms Hermipy.Props.C85_forward
#print axioms Hermipy.Props.C85_backward
#print axioms Hermipy.Props.C85_integrate_default_undefined
#print axioms Hermipy.Props.C85_varf
#print axioms Hermipy.Props.C85_varfd_hermite_partial
#print axioms Hermipy.Props.C85_varfd_fourier_partial
#print axioms Hermipy.Props.C85_chain
#print axioms Hermipy.Props.C85_rejects
#print axioms Hermipy.Props.C85_unknown_exits
#print axioms Hermipy.Props.C86_gauss
#print axioms Hermipy.Props.C86_gauss_smooth
#print axioms Hermipy.Props.C86_fourier
#print axioms Hermipy.Props.C86_fourier_series
#print axioms Hermipy.Props.C87_function_curve
#print axioms Hermipy.Props.C87_function_surface
#print axioms Hermipy.Props.C87_series_curve
#print axioms Hermipy.Props.C87_series_surface
#print axioms Hermipy.Props.C87_hf_curve
#print axioms Hermipy.Props.C87_hf_surface
#print axioms Hermipy.Props.C87_turning
#print axioms Hermipy.Props.C87_sum_false
#print axioms Hermipy.Props.C87_coupled_false
#print axioms Hermipy.Props.C87_dimension
#print axioms Hermipy.Props.C87_hf_odd_false
#print axioms Hermipy.Props.C87_factor_false
#print axioms Hermipy.Props.C88_streams
#print axioms Hermipy.Props.C88_differences
#print axioms Hermipy.Props.C88_accuracy
#print axioms Hermipy.Props.C88_levels
#print axioms Hermipy.Props.C88_levels_false
#print axioms Hermipy.Props.C88_functions_false
#print axioms Hermipy.Props.C88_directions_false
#print axioms Hermipy.Props.C89_value
#print axioms Hermipy.Props.C89_dirs
#print axioms Hermipy.Props.C89_dim
#print axioms Hermipy.Props.C89_free
#print axioms Hermipy.Props.C89_rejects
#print axioms Hermipy.Props.C89_rejects_dependence
#print axioms Hermipy.Props.C89_arithmetic
#print axioms Hermipy.Props.C89_arithmetic_rejects
#print axioms Hermipy.Props.C89_operand
#print axioms Hermipy.Props.C89_as_xyz
#print axioms Hermipy.Props.C89_round_trip
#print axioms Hermipy.Props.C89_negative_accepted
#print axioms Hermipy.Props.C89_repeated_accepted
#print axioms Hermipy.Props.C89_copy_false
#print axioms Hermipy.Props.C89_ccode
#print axioms Hermipy.Props.C89_ccode_false
#print axioms Hermipy.Props.C89_sanitize_error
#print axioms Hermipy.Props.C89_sanitize_recovers
#print axioms Hermipy.Props.C89_sanitize_idempotent
#print axioms Hermipy.Props.C89_sanitize_threshold
#print axioms Hermipy.Props.C89_sanitize_drops
#print axioms Hermipy.Props.C90_normal
#print axioms Hermipy.Props.C90_kernel
#print axioms Hermipy.Props.C90_density
#print axioms Hermipy.Props.C90_unique
#print axioms Hermipy.Props.C90_found
#print axioms Hermipy.Props.C90_offset
#print axioms Hermipy.Props.C90_backward
#print axioms Hermipy.Props.C90_fokker_planck
#print axioms Hermipy.Props.C90_mv_white
#print axioms Hermipy.Props.C90_mv
#print axioms Hermipy.Props.C90_harmonic
#print axioms Hermipy.Props.C90_langevin
#print axioms Hermipy.Props.C90_langevin_backward
#print axioms Hermipy.Props.C90_solver
#print axioms Hermipy.Props.C90_unstable
#print axioms Hermipy.Props.C91_exact
#print axioms Hermipy.Props.C91_binary
#print axioms Hermipy.Props.C91_size
#print axioms Hermipy.Props.C91_hermite_eval
#print axioms Hermipy.Props.C91_forward
#print axioms Hermipy.Props.C91_backward
#print axioms Hermipy.Props.C91_integrate
#print axioms Hermipy.Props.C91_integrate_bounded
#print axioms Hermipy.Props.C91_inner
#print axioms Hermipy.Props.C91_tensorize
#print axioms Hermipy.Props.C92_detects_partial
#print axioms Hermipy.Props.C92_accepts
#print axioms Hermipy.Props.C92_fresh
#print axioms Hermipy.Props.C92_transparent_partial
#print axioms Hermipy.Props.C92_stale_partial
#print axioms Hermipy.Props.C92_confirms
#print axioms Hermipy.Props.C92_quiet
#print axioms Hermipy.Props.C92_sparse_false
#print axioms Hermipy.Props.C92_axes_false
#print axioms Hermipy.Props.C92_shape_false
#print axioms Hermipy.Props.C93_eigs
#print axioms Hermipy.Props.C93_real
#print axioms Hermipy.Props.C93_nearly_real
#print axioms Hermipy.Props.C93_remove0
#print axioms Hermipy.Props.C93_remove0_singular
#print axioms Hermipy.Props.C93_remove0_rejects
#print axioms Hermipy.Props.C93_uncached
#print axioms Hermipy.Props.C94_dense
#print axioms Hermipy.Props.C94_sparse_partial
#print axioms Hermipy.Props.C94_sparse_false
#print axioms Hermipy.Props.C94_lines
#print axioms Hermipy.Props.C94_lines_degree
#print axioms Hermipy.Props.C94_lines_cross
#print axioms Hermipy.Props.C94_lines_false
#print axioms Hermipy.Props.C94_series_line
#print axioms Hermipy.Props.C94_series_plane
#print axioms Hermipy.Props.C94_series_false
#print axioms Hermipy.Props.C94_nodes_text
#print axioms Hermipy.Props.C94_nodes_false
#print axioms Hermipy.Props.C95_exact
#print axioms Hermipy.Props.C95_binary
#print axioms Hermipy.Props.C95_hermite_table
#print axioms Hermipy.Props.C95_fourier_table
#print axioms Hermipy.Props.C95_varf
#print axioms Hermipy.Props.C95_quadrature
#print axioms Hermipy.Props.C95_symmetric
#print axioms Hermipy.Props.C96_density
#print axioms Hermipy.Props.C96_weight
#print axioms Hermipy.Props.C96_orthonormal
#print axioms Hermipy.Props.C96_factor_partial
#print axioms Hermipy.Props.C96_discretize
#print axioms Hermipy.Props.C96_tensorize
#print axioms Hermipy.Props.C96_gauss_hermite_partial
#print axioms Hermipy.Props.C96_rule
#print axioms Hermipy.Props.C96_covariance
#print axioms Hermipy.Props.C96_transform_partial
#print axioms Hermipy.Props.C96_repeated_false
#print axioms Hermipy.Props.C97_exact
#print axioms Hermipy.Props.C97_hermite
#print axioms Hermipy.Props.C97_fourier
#print axioms Hermipy.Props.C97_dense
#print axioms Hermipy.Props.C97_form_hermite
#print axioms Hermipy.Props.C97_form_fourier
#print axioms Hermipy.Props.C97_discretize
#print axioms Hermipy.Props.C97_values
#print axioms Hermipy.Props.C98_varf
#print axioms Hermipy.Props.C98_small
#print axioms Hermipy.Props.C98_varfd
#print axioms Hermipy.Props.C98_op
#print axioms Hermipy.Props.C98_tensorize
#print axioms Hermipy.Props.C98_varfd_tensorize
#print axioms Hermipy.Props.C98_op_tensorize
#print axioms Hermipy.Props.C98_mapped
#print axioms Hermipy.Props.C98_comp
