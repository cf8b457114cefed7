{
 "claims": [
  {
   "property": "C01",
   "status": "proved",
   "theorems": [
    "C01_registry",
    "C01_names_nodup",
    "C01_partition",
    "C01_alignment"
   ],
   "note": ""
  },
  {
   "property": "C02",
   "status": "proved",
   "theorems": [
    "C02_rejects_iff",
    "C02_rejected_unchanged",
    "C02_accepted_registered"
   ],
   "note": ""
  },
  {
   "property": "C03",
   "status": "proved",
   "theorems": [
    "C03_distribution_resets",
    "C03_setCorrelation",
    "C03_otherwise_kept",
    "C03_setCorrelation_lost"
   ],
   "note": ""
  },
  {
   "property": "C04",
   "status": "proved",
   "theorems": [
    "C04_counts",
    "C04_counter_total"
   ],
   "note": ""
  },
  {
   "property": "C05",
   "status": "proved",
   "theorems": [
    "C05_block_size_invisible",
    "C05_block_size_zero_diverges"
   ],
   "note": ""
  },
  {
   "property": "C06",
   "status": "proved",
   "theorems": [
    "C06_ffd",
    "C06_ffd_exact_affine",
    "C06_ffd_error",
    "C06_ffd_multi_point_raises"
   ],
   "note": ""
  },
  {
   "property": "C07",
   "status": "proved",
   "theorems": [
    "C07_caller_array"
   ],
   "note": ""
  },
  {
   "property": "C08",
   "status": "proved",
   "theorems": [
    "C08_multiproc_zero",
    "C08_suppressed",
    "C08_zero_gradient",
    "C08_modes",
    "C08_ddm_single",
    "C08_ddm_multi_point_raises"
   ],
   "note": ""
  },
  {
   "property": "C09",
   "status": "proved",
   "theorems": [
    "C09_binding",
    "C09_too_few_rows"
   ],
   "note": ""
  },
  {
   "property": "C10",
   "status": "proved",
   "theorems": [
    "C10_no_gradient",
    "C10_ddm"
   ],
   "note": ""
  },
  {
   "property": "C11",
   "status": "proved",
   "theorems": [
    "C11_cdf_shape",
    "C11_symmetry",
    "C11_density",
    "C11_measure",
    "C11_inverse"
   ],
   "note": ""
  },
  {
   "property": "C12",
   "status": "proved",
   "theorems": [
    "C12_normal",
    "C12_lognormal",
    "C12_lognormal_params",
    "C12_shiftedLognormal",
    "C12_uniform",
    "C12_uniform_params",
    "C12_gamma",
    "C12_gamma_params",
    "C12_shiftedExponential",
    "C12_shiftedRayleigh",
    "C12_gumbel",
    "C12_gumbel_params",
    "C12_typeIsmallest",
    "C12_chiSquare",
    "C12_weibull",
    "C12_typeIIlargest",
    "C12_general"
   ],
   "note": ""
  },
  {
   "property": "C13",
   "status": "proved",
   "theorems": [
    "C13_normal",
    "C13_lognormal",
    "C13_lognormal_params",
    "C13_shiftedLognormal",
    "C13_uniform",
    "C13_uniform_params",
    "C13_gamma",
    "C13_gamma_params",
    "C13_shiftedExponential",
    "C13_shiftedRayleigh",
    "C13_gumbel",
    "C13_gumbel_params",
    "C13_typeIsmallest",
    "C13_chiSquare",
    "C13_weibull",
    "C13_typeIIlargest",
    "C13_general",
    "C13_closed_forms"
   ],
   "note": ""
  },
  {
   "property": "C14",
   "status": "proved",
   "theorems": [
    "C14_normal",
    "C14_lognormal",
    "C14_lognormal_params",
    "C14_shiftedLognormal",
    "C14_uniform",
    "C14_uniform_params",
    "C14_gamma",
    "C14_gamma_params",
    "C14_shiftedExponential",
    "C14_shiftedRayleigh",
    "C14_gumbel",
    "C14_gumbel_params",
    "C14_typeIsmallest",
    "C14_chiSquare",
    "C14_weibull",
    "C14_typeIIlargest",
    "C14_beta"
   ],
   "note": ""
  },
  {
   "property": "C15",
   "status": "proved",
   "theorems": [
    "C15_moments",
    "C15_frozen",
    "C15_negative_stdv_accepted"
   ],
   "note": ""
  },
  {
   "property": "C16",
   "status": "proved",
   "theorems": [
    "C16_ctor",
    "C16_max_of_copies",
    "C16_pdf",
    "C16_inverse"
   ],
   "note": ""
  },
  {
   "property": "C17",
   "status": "proved",
   "theorems": [
    "C17_ctor",
    "C17_pdf",
    "C17_inverse",
    "C17_undo"
   ],
   "note": ""
  },
  {
   "property": "C18",
   "status": "proved",
   "theorems": [
    "C18_ctor",
    "C18_law",
    "C18_moments",
    "C18_ppf",
    "C18_pdf_not_density",
    "C18_set",
    "C18_set_unchecked"
   ],
   "note": ""
  },
  {
   "property": "C19",
   "status": "proved",
   "theorems": [
    "C19_normal",
    "C19_lognormal",
    "C19_shiftedLognormal_true",
    "C19_shiftedLognormal_zero",
    "C19_shiftedLognormal_wrong"
   ],
   "note": ""
  },
  {
   "property": "C20",
   "status": "proved",
   "theorems": [
    "C20_rejects",
    "C20_max",
    "C20_max_window",
    "C20_min_law",
    "C20_min_mean_wrong",
    "C20_min_ppf",
    "C20_min_density",
    "C20_min_roundtrip_fails"
   ],
   "note": ""
  },
  {
   "property": "C21",
   "status": "proved",
   "theorems": [
    "C21_round_trip",
    "C21_posdef"
   ],
   "note": ""
  },
  {
   "property": "C22",
   "status": "proved",
   "theorems": [
    "C22_posdef",
    "C22_covariance",
    "C22_rejects",
    "C22_svd_indefinite"
   ],
   "note": ""
  },
  {
   "property": "C23",
   "status": "proved",
   "theorems": [
    "C23_jacobian",
    "C23_chain_rule"
   ],
   "note": ""
  },
  {
   "property": "C24",
   "status": "proved",
   "theorems": [
    "C24_types",
    "C24_frozen",
    "C24_creation"
   ],
   "note": ""
  },
  {
   "property": "C25",
   "status": "proved",
   "theorems": [
    "C25_entries",
    "C25_zero",
    "C25_lower_only",
    "C25_nip",
    "C25_reproduces",
    "C25_too_many",
    "C25_model"
   ],
   "note": ""
  },
  {
   "property": "C26",
   "status": "proved",
   "theorems": [
    "C26_factor",
    "C26_independent"
   ],
   "note": ""
  },
  {
   "property": "C27",
   "status": "proved",
   "theorems": [
    "C27_equation",
    "C27_path",
    "C27_inverse",
    "C27_combined"
   ],
   "note": ""
  },
  {
   "property": "C28",
   "status": "proved",
   "theorems": [
    "C28_stops",
    "C28_not_late",
    "C28_start_on_surface",
    "C28_imax_zero"
   ],
   "note": ""
  },
  {
   "property": "C29",
   "status": "proved",
   "theorems": [
    "C29_identities"
   ],
   "note": ""
  },
  {
   "property": "C30",
   "status": "proved",
   "theorems": [
    "C30_armijo",
    "C30_default",
    "C30_exact",
    "C30_ffd"
   ],
   "note": ""
  },
  {
   "property": "C31",
   "status": "proved",
   "theorems": [
    "C31_armijo",
    "C31_fixed"
   ],
   "note": ""
  },
  {
   "property": "C32",
   "status": "proved",
   "theorems": [
    "C32_closest_point",
    "C32_zero_iff",
    "C32_descent",
    "C32_code_constant"
   ],
   "note": ""
  },
  {
   "property": "C33",
   "status": "proved",
   "theorems": [
    "C33_same_results"
   ],
   "note": ""
  },
  {
   "property": "C34",
   "status": "proved",
   "theorems": [
    "C34_calls",
    "C34_run"
   ],
   "note": ""
  },
  {
   "property": "C35",
   "status": "proved",
   "theorems": [
    "C35_labels",
    "C35_correct",
    "C35_shifted"
   ],
   "note": ""
  },
  {
   "property": "C36",
   "status": "proved",
   "theorems": [
    "C36_crude",
    "C36_variance"
   ],
   "note": ""
  },
  {
   "property": "C37",
   "status": "proved",
   "theorems": [
    "C37_run",
    "C37_evaluations",
    "C37_block_size_zero"
   ],
   "note": ""
  },
  {
   "property": "C38",
   "status": "proved",
   "theorems": [
    "C38_unbiased",
    "C38_unit_weights"
   ],
   "note": ""
  },
  {
   "property": "C39",
   "status": "proved",
   "theorems": [
    "C39_bins",
    "C39_stores_every_sample"
   ],
   "note": ""
  },
  {
   "property": "C40",
   "status": "proved",
   "theorems": [
    "C40_run"
   ],
   "note": ""
  },
  {
   "property": "C41",
   "status": "proved",
   "theorems": [
    "C41_levels",
    "C41_chains"
   ],
   "note": ""
  },
  {
   "property": "C42",
   "status": "proved",
   "theorems": [
    "C42_acceptance",
    "C42_detailed_balance",
    "C42_invariant"
   ],
   "note": ""
  },
  {
   "property": "C43",
   "status": "proved",
   "theorems": [
    "C43_needs_failure",
    "C43_no_failure"
   ],
   "note": ""
  },
  {
   "property": "C44",
   "status": "proved",
   "theorems": [
    "C44_location"
   ],
   "note": ""
  },
  {
   "property": "C45",
   "status": "proved",
   "theorems": [
    "C45_run",
    "C45_affine",
    "C45_unbiased",
    "C45_whole",
    "C45_exact"
   ],
   "note": ""
  },
  {
   "property": "C46",
   "status": "proved",
   "theorems": [
    "C46_curve",
    "C46_flat",
    "C46_symmetric",
    "C46_monotone",
    "C46_invalid",
    "C46_negative_index"
   ],
   "note": ""
  },
  {
   "property": "C47",
   "status": "proved",
   "theorems": [
    "C47_rotation",
    "C47_defined"
   ],
   "note": ""
  },
  {
   "property": "C48",
   "status": "proved",
   "theorems": [
    "C48_curvatures",
    "C48_exact",
    "C48_ddm",
    "C48_calls",
    "C48_ffd",
    "C48_mixed",
    "C48_mixed_raises_ffd",
    "C48_mixed_raises_ddm",
    "C48_ffd_jacobian",
    "C48_ffd_inexact"
   ],
   "note": ""
  },
  {
   "property": "C49",
   "status": "proved",
   "theorems": [
    "C49_point",
    "C49_run",
    "C49_invalid",
    "C49_parabola",
    "C49_plane",
    "C49_calls"
   ],
   "note": ""
  },
  {
   "property": "C50",
   "status": "proved",
   "theorems": [
    "C50_independent",
    "C50_normal",
    "C50_report",
    "C50_affine",
    "C50_derivative"
   ],
   "note": ""
  },
  {
   "property": "C51",
   "status": "proved",
   "theorems": [
    "C51_affine",
    "C51_svd",
    "C51_shape",
    "C51_derivative"
   ],
   "note": ""
  },
  {
   "property": "C52",
   "status": "proved",
   "theorems": [
    "C52_affine",
    "C52_affine_limit",
    "C52_user_model",
    "C52_entries",
    "C52_copy"
   ],
   "note": ""
  },
  {
   "property": "C53",
   "status": "proved",
   "theorems": [
    "C53_inline",
    "C53_density",
    "C53_symmetric",
    "C53_marginal",
    "C53_correlation",
    "C53_derivative"
   ],
   "note": ""
  },
  {
   "property": "C54",
   "status": "proved",
   "theorems": [
    "C54_grid",
    "C54_sum",
    "C54_symmetric",
    "C54_derivative",
    "C54_implicit_first",
    "C54_implicit_second"
   ],
   "note": ""
  },
  {
   "property": "C55",
   "status": "proved",
   "theorems": [
    "C55_recursion",
    "C55_derivatives",
    "C55_exact_root",
    "C55_length",
    "C55_symmetry",
    "C55_one",
    "C55_residual"
   ],
   "note": ""
  },
  {
   "property": "C56",
   "status": "proved",
   "theorems": [
    "C56_case",
    "C56_created",
    "C56_labels",
    "C56_default_fails"
   ],
   "note": ""
  },
  {
   "property": "C57",
   "status": "proved",
   "theorems": [
    "C57_model",
    "C57_overrides",
    "C57_unknown_ignored",
    "C57_default_case",
    "C57_evaluation",
    "C57_no_constants"
   ],
   "note": ""
  },
  {
   "property": "C58",
   "status": "proved",
   "theorems": [
    "C58_coefficient",
    "C58_table"
   ],
   "note": ""
  },
  {
   "property": "C59",
   "status": "proved",
   "theorems": [
    "C59_phi_min",
    "C59_psi_max",
    "C59_positional",
    "C59_negative"
   ],
   "note": ""
  },
  {
   "property": "C60",
   "status": "proved",
   "theorems": [
    "C60_terminates",
    "C60_alpha",
    "C60_projection",
    "C60_rounds",
    "C60_all_cases",
    "C60_optimize",
    "C60_optimize_unchecked",
    "C60_start_converged",
    "C60_target_ignored",
    "C60_unknown_method",
    "C60_case"
   ],
   "note": ""
  },
  {
   "property": "C61",
   "status": "proved",
   "theorems": [
    "C61_design",
    "C61_limit_state",
    "C61_between",
    "C61_grid",
    "C61_arguments",
    "C61_incomplete",
    "C61_keywords",
    "C61_setters",
    "C61_filled"
   ],
   "note": ""
  },
  {
   "property": "C62",
   "status": "proved",
   "theorems": [
    "C62_analyse",
    "C62_add",
    "C62_history",
    "C62_current",
    "C62_stale",
    "C62_mixed"
   ],
   "note": ""
  },
  {
   "property": "C63",
   "status": "proved",
   "theorems": [
    "C63_kept"
   ],
   "note": ""
  },
  {
   "property": "C64",
   "status": "proved",
   "theorems": [
    "C64_calls"
   ],
   "note": ""
  },
  {
   "property": "C65",
   "status": "proved",
   "theorems": [
    "C65_design_equation",
    "C65_succeeds",
    "C65_square",
    "C65_other_name"
   ],
   "note": ""
  },
  {
   "property": "C66",
   "status": "proved",
   "theorems": [
    "C66_design_param",
    "C66_factored_values",
    "C66_factor",
    "C66_start_matters"
   ],
   "note": ""
  },
  {
   "property": "C67",
   "status": "proved",
   "theorems": [
    "C67_run",
    "C67_coeff"
   ],
   "note": ""
  },
  {
   "property": "C68",
   "status": "proved",
   "theorems": [
    "C68_betas"
   ],
   "note": ""
  },
  {
   "property": "C69",
   "status": "proved",
   "theorems": [
    "C69_rerun",
    "C69_runs"
   ],
   "note": ""
  },
  {
   "property": "C70",
   "status": "proved",
   "theorems": [
    "C70_frame",
    "C70_definition",
    "C70_session",
    "C70_terminates",
    "C70_order",
    "C70_form",
    "C70_ends"
   ],
   "note": ""
  },
  {
   "property": "C71",
   "status": "proved",
   "theorems": [
    "C71_run",
    "C71_unbiased",
    "C71_print",
    "C71_constructor",
    "C71_linear"
   ],
   "note": ""
  },
  {
   "property": "C72",
   "status": "proved",
   "theorems": [
    "C72_new",
    "C72_scipy",
    "C72_normal",
    "C72_lognormal",
    "C72_shiftedLognormal",
    "C72_uniform",
    "C72_uniform_stale",
    "C72_bad_scale",
    "C72_frame",
    "C72_frame_new",
    "C72_zeroInflated",
    "C72_maximum",
    "C72_maxParent",
    "C72_stale_wrapper",
    "C72_parameters",
    "C72_start",
    "C72_gevMin",
    "C72_lognormal_stale"
   ],
   "note": ""
  },
  {
   "property": "C73",
   "status": "proved",
   "theorems": [
    "C73_values",
    "C73_consecutive",
    "C73_law",
    "C73_scipy",
    "C73_normal",
    "C73_lognormal_stale"
   ],
   "note": ""
  },
  {
   "property": "C74",
   "status": "proved",
   "theorems": [
    "C74_marginal",
    "C74_component",
    "C74_moments",
    "C74_pair",
    "C74_correlation",
    "C74_joint",
    "C74_type",
    "C74_independent",
    "C74_classes"
   ],
   "note": ""
  },
  {
   "property": "C75",
   "status": "proved",
   "theorems": [
    "C75_variance",
    "C75_variance_unit",
    "C75_error",
    "C75_crude_error",
    "C75_physical"
   ],
   "note": ""
  },
  {
   "property": "C76",
   "status": "proved",
   "theorems": [
    "C76_run",
    "C76_history",
    "C76_mixed"
   ],
   "note": ""
  },
  {
   "property": "C77",
   "status": "proved",
   "theorems": [
    "C77_detailed",
    "C77_after_run",
    "C77_added_variable"
   ],
   "note": ""
  },
  {
   "property": "C78",
   "status": "proved",
   "theorems": [
    "C78_history",
    "C78_form_kept",
    "C78_mixed",
    "C78_fresh"
   ],
   "note": ""
  },
  {
   "property": "C79",
   "status": "proved",
   "theorems": [
    "C79_detailed"
   ],
   "note": ""
  },
  {
   "property": "C80",
   "status": "proved",
   "theorems": [
    "C80_history",
    "C80_form_kept",
    "C80_fresh",
    "C80_wrong_way",
    "C80_rerun"
   ],
   "note": ""
  },
  {
   "property": "C81",
   "status": "proved",
   "theorems": [
    "C81_history",
    "C81_report",
    "C81_last",
    "C81_mixed",
    "C81_fresh",
    "C81_importance",
    "C81_stale",
    "C81_stale_new"
   ],
   "note": ""
  },
  {
   "property": "C82",
   "status": "proved",
   "theorems": [
    "C82_arrays",
    "C82_plots",
    "C82_short_block"
   ],
   "note": ""
  },
  {
   "property": "C83",
   "status": "proved",
   "theorems": [
    "C83_new",
    "C83_history",
    "C83_report",
    "C83_last",
    "C83_mixed",
    "C83_fresh"
   ],
   "note": ""
  },
  {
   "property": "C84",
   "status": "proved",
   "theorems": [
    "C84_defaults",
    "C84_attributes",
    "C84_getters",
    "C84_unknown",
    "C84_meaning",
    "C84_reach",
    "C84_default_settings",
    "C84_reads",
    "C84_objects",
    "C84_analyses",
    "C84_created",
    "C84_own",
    "C84_refused"
   ],
   "note": ""
  },
  {
   "property": "C85",
   "status": "proved",
   "theorems": [
    "C85_copy",
    "C85_gumbel",
    "C85_composite"
   ],
   "note": ""
  },
  {
   "property": "C86",
   "status": "proved",
   "theorems": [
    "C86_entries",
    "C86_mean_value",
    "C86_location_scale",
    "C86_typeI",
    "C86_shape_step",
    "C86_chisquare",
    "C86_composite",
    "C86_total",
    "C86_moments",
    "C86_moments_unknown"
   ],
   "note": ""
  },
  {
   "property": "C87",
   "status": "proved",
   "theorems": [
    "C87_every",
    "C87_integral",
    "C87_draws",
    "C87_gevMin"
   ],
   "note": ""
  },
  {
   "property": "C88",
   "status": "proved",
   "theorems": [
    "C88_history",
    "C88_run",
    "C88_complete",
    "C88_progress",
    "C88_report",
    "C88_titles",
    "C88_generator",
    "C88_law",
    "C88_stdv"
   ],
   "note": ""
  },
  {
   "property": "C89",
   "status": "proved",
   "theorems": [
    "C89_form",
    "C89_line",
    "C89_simulation",
    "C89_curvefit",
    "C89_pointfit",
    "C89_automatic_step",
    "C89_subset"
   ],
   "note": ""
  },
  {
   "property": "C90",
   "status": "proved",
   "theorems": [
    "C90_family",
    "C90_equations",
    "C90_gevMin",
    "C90_form",
    "C90_model",
    "C90_correlation",
    "C90_session"
   ],
   "note": ""
  },
  {
   "property": "C91",
   "status": "proved",
   "theorems": [
    "C91_build",
    "C91_independent",
    "C91_alpha_order",
    "C91_form"
   ],
   "note": ""
  },
  {
   "property": "C92",
   "status": "proved",
   "theorems": [
    "C92_example",
    "C92_form",
    "C92_cholesky"
   ],
   "note": ""
  },
  {
   "property": "C93",
   "status": "proved",
   "theorems": [
    "C93_draws",
    "C93_describes",
    "C93_standard",
    "C93_maximum",
    "C93_maxParent",
    "C93_zeroInflated",
    "C93_normal",
    "C93_independent",
    "C93_monte_carlo",
    "C93_atom",
    "C93_class"
   ],
   "note": ""
  },
  {
   "property": "C94",
   "status": "proved",
   "theorems": [
    "C94_affine",
    "C94_example",
    "C94_options",
    "C94_table",
    "C94_user_model",
    "C94_rows"
   ],
   "note": ""
  },
  {
   "property": "C95",
   "status": "proved",
   "theorems": [
    "C95_values",
    "C95_separate",
    "C95_reachable",
    "C95_shared",
    "C95_assign"
   ],
   "note": ""
  },
  {
   "property": "C96",
   "status": "proved",
   "theorems": [
    "C96_convex",
    "C96_concave",
    "C96_affine",
    "C96_ddm"
   ],
   "note": ""
  },
  {
   "property": "C97",
   "status": "proved",
   "theorems": [
    "C97_simulation",
    "C97_beta",
    "C97_cov",
    "C97_stops",
    "C97_never",
    "C97_exponential",
    "C97_line",
    "C97_line_variance",
    "C97_distribution"
   ],
   "note": ""
  },
  {
   "property": "C98",
   "status": "proved",
   "theorems": [
    "C98_bounds",
    "C98_asymptotic"
   ],
   "note": ""
  },
  {
   "property": "C99",
   "status": "proved",
   "theorems": [
    "C99_upper",
    "C99_convex",
    "C99_concave",
    "C99_local"
   ],
   "note": ""
  },
  {
   "property": "C100",
   "status": "proved",
   "theorems": [
    "C100_rename_model",
    "C100_rename",
    "C100_constant_model",
    "C100_constant"
   ],
   "note": ""
  },
  {
   "property": "C101",
   "status": "proved",
   "theorems": [
    "C101_monotone",
    "C101_inclusion_exclusion",
    "C101_series",
    "C101_parallel",
    "C101_early_stopping"
   ],
   "note": ""
  },
  {
   "property": "C102",
   "status": "proved",
   "theorems": [
    "C102_agree",
    "C102_index"
   ],
   "note": ""
  },
  {
   "property": "C103",
   "status": "proved",
   "theorems": [
    "C103_paraboloid",
    "C103_cycle",
    "C103_global",
    "C103_local"
   ],
   "note": ""
  },
  {
   "property": "C104",
   "status": "proved",
   "theorems": [
    "C104_formulation",
    "C104_factor",
    "C104_exact",
    "C104_margin"
   ],
   "note": ""
  },
  {
   "property": "C105",
   "status": "proved",
   "theorems": [
    "C105_noise",
    "C105_ffd"
   ],
   "note": ""
  },
  {
   "property": "C106",
   "status": "proved",
   "theorems": [
    "C106_variance",
    "C106_cov",
    "C106_stops"
   ],
   "note": ""
  },
  {
   "property": "C107",
   "status": "proved",
   "theorems": [
    "C107_weights",
    "C107_crude",
    "C107_curvefit",
    "C107_breitung",
    "C107_modified"
   ],
   "note": ""
  },
  {
   "property": "C108",
   "status": "proved",
   "theorems": [
    "C108_hessian",
    "C108_curvatures",
    "C108_limit",
    "C108_complex"
   ],
   "note": ""
  },
  {
   "property": "C109",
   "status": "proved",
   "theorems": [
    "C109_correlation",
    "C109_modified",
    "C109_marginal",
    "C109_normal",
    "C109_lognormal",
    "C109_two_points"
   ],
   "note": ""
  },
  {
   "property": "C110",
   "status": "proved",
   "theorems": [
    "C110_case",
    "C110_unreachable",
    "C110_start",
    "C110_all"
   ],
   "note": ""
  },
  {
   "property": "C111",
   "status": "proved",
   "theorems": [
    "C111_quotient",
    "C111_close",
    "C111_normal",
    "C111_lognormal"
   ],
   "note": ""
  },
  {
   "property": "C112",
   "status": "proved",
   "theorems": [
    "C112_upper",
    "C112_accuracy"
   ],
   "note": ""
  },
  {
   "property": "C113",
   "status": "proved",
   "theorems": [
    "C113_life",
    "C113_ends",
    "C113_completed",
    "C113_raised",
    "C113_table",
    "C113_mixed"
   ],
   "note": ""
  },
  {
   "property": "C114",
   "status": "proved",
   "theorems": [
    "C114_sample",
    "C114_normal"
   ],
   "note": ""
  },
  {
   "property": "C115",
   "status": "proved",
   "theorems": [
    "C115_interval",
    "C115_crude"
   ],
   "note": ""
  },
  {
   "property": "C116",
   "status": "proved",
   "theorems": [
    "C116_target",
    "C116_crude"
   ],
   "note": ""
  },
  {
   "property": "C117",
   "status": "proved",
   "theorems": [
    "C117_design_point",
    "C117_total",
    "C117_grid",
    "C117_units",
    "C117_factors",
    "C117_live",
    "C117_names"
   ],
   "note": ""
  },
  {
   "property": "C118",
   "status": "proved",
   "theorems": [
    "C118_probability",
    "C118_accuracy",
    "C118_converges",
    "C118_global",
    "C118_ffd"
   ],
   "note": ""
  },
  {
   "property": "C119",
   "status": "proved",
   "theorems": [
    "C119_normal",
    "C119_lognormal",
    "C119_lognormal_range",
    "C119_normal_lognormal",
    "C119_unreachable",
    "C119_monotone",
    "C119_sign",
    "C119_range",
    "C119_solvable",
    "C119_joint"
   ],
   "note": ""
  },
  {
   "property": "C120",
   "status": "proved",
   "theorems": [
    "C120_systems",
    "C120_independent",
    "C120_simulation",
    "C120_form"
   ],
   "note": ""
  },
  {
   "property": "C121",
   "status": "proved",
   "theorems": [
    "C121_order",
    "C121_exact",
    "C121_simulation",
    "C121_form",
    "C121_classes",
    "C121_gevMin",
    "C121_lognormal"
   ],
   "note": ""
  },
  {
   "property": "C122",
   "status": "proved",
   "theorems": [
    "C122_ceiling",
    "C122_gain",
    "C122_form",
    "C122_affine",
    "C122_harm",
    "C122_optimal"
   ],
   "note": ""
  },
  {
   "property": "C123",
   "status": "proved",
   "theorems": [
    "C123_variance",
    "C123_unused",
    "C123_affine",
    "C123_dimension"
   ],
   "note": ""
  },
  {
   "property": "C124",
   "status": "proved",
   "theorems": [
    "C124_law",
    "C124_blind",
    "C124_importance_error"
   ],
   "note": ""
  },
  {
   "property": "C125",
   "status": "proved",
   "theorems": [
    "C125_one_level",
    "C125_law",
    "C125_frequent",
    "C125_rare",
    "C125_crude",
    "C125_numbers"
   ],
   "note": ""
  },
  {
   "property": "C126",
   "status": "proved",
   "theorems": [
    "C126_blind",
    "C126_probability",
    "C126_reach"
   ],
   "note": ""
  },
  {
   "property": "C127",
   "status": "proved",
   "theorems": [
    "C127_modes",
    "C127_two_sided",
    "C127_thin",
    "C127_blind"
   ],
   "note": ""
  },
  {
   "property": "C128",
   "status": "proved",
   "theorems": [
    "C128_cost",
    "C128_no_crossing"
   ],
   "note": ""
  },
  {
   "property": "C129",
   "status": "proved",
   "theorems": [
    "C129_level"
   ],
   "note": ""
  },
  {
   "property": "C130",
   "status": "proved",
   "theorems": [
    "C130_angle",
    "C130_direction",
    "C130_moments"
   ],
   "note": ""
  },
  {
   "property": "C131",
   "status": "proved",
   "theorems": [
    "C131_cost",
    "C131_mixed",
    "C131_whole",
    "C131_flat",
    "C131_plane"
   ],
   "note": ""
  },
  {
   "property": "C132",
   "status": "proved",
   "theorems": [
    "C132_price",
    "C132_session",
    "C132_range",
    "C132_budget"
   ],
   "note": ""
  },
  {
   "property": "C133",
   "status": "proved",
   "theorems": [
    "C133_never_ahead",
    "C133_exact",
    "C133_shapes",
    "C133_behind"
   ],
   "note": ""
  }
 ]
}