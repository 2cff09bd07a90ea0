{
 "claims": [
  {
   "property": "C01",
   "status": "proved",
   "theorems": [
    "SecDec.Poly.C01_arith_formal",
    "SecDec.Poly.C01_arith_eval"
   ],
   "note": ""
  },
  {
   "property": "C02",
   "status": "proved",
   "theorems": [
    "SecDec.Poly.C02_simplify_normal_form",
    "SecDec.Poly.C02_simplify_canonical",
    "SecDec.Poly.C02_simplify_idempotent"
   ],
   "note": ""
  },
  {
   "property": "C03",
   "status": "proved",
   "theorems": [
    "SecDec.Poly.C03_derive"
   ],
   "note": ""
  },
  {
   "property": "C04",
   "status": "proved",
   "theorems": [
    "SecDec.Expr.C04_replace_tree",
    "SecDec.Expr.C04_replace_zero_meaningful",
    "SecDec.Expr.C04_replace_one_meaningful",
    "SecDec.Expr.C04_replace_zero_skips_coefficients",
    "SecDec.Poly.C04_replace",
    "SecDec.Poly.C04_replace_rows",
    "SecDec.Poly.C04_replace_zero_drops_pole"
   ],
   "note": ""
  },
  {
   "property": "C05",
   "status": "proved",
   "theorems": [
    "SecDec.Poly.C05_refactorize",
    "SecDec.Poly.C05_refactorize_total",
    "SecDec.Poly.C05_refactorize_empty",
    "SecDec.Poly.C05_refactorize_idempotent",
    "SecDec.Poly.C05_has_constant_term",
    "SecDec.Poly.C05_has_constant_term_indices",
    "SecDec.Poly.C05_becomes_zero_for"
   ],
   "note": ""
  },
  {
   "property": "C06",
   "status": "proved",
   "theorems": [
    "SecDec.Expr.C06_derive_is_partial_derivative"
   ],
   "note": ""
  },
  {
   "property": "C07",
   "status": "partial",
   "theorems": [
    "SecDec.Expr.C07_simplify_preserves_value_partial",
    "SecDec.Expr.C07_simplify_changes_value"
   ],
   "note": "Value preservation proved for all expression trees in three classes (Good bases and arbitrary nesting; polynomial exponents and bases that are not sums of ones; polynomial exponents that are not positive integers and arbitrary bases). Outside of these the claim is false in the code: C07_simplify_changes_value is a machine-checked counterexample."
  },
  {
   "property": "C08",
   "status": "proved",
   "theorems": [
    "SecDec.PRule.C08_productRule_exact",
    "SecDec.PRule.C08_productRule_zero"
   ],
   "note": ""
  },
  {
   "property": "C09",
   "status": "proved",
   "theorems": [
    "SecDec.Misc.C09_powerset",
    "SecDec.Misc.C09_powerset_stride_zero",
    "SecDec.Misc.C09_powerset_order",
    "SecDec.Misc.C09_powerset_not_multiple_of_stride",
    "SecDec.Misc.C09_rangecomb",
    "SecDec.Misc.C09_missing",
    "SecDec.Misc.C09_all_pairs",
    "SecDec.Misc.C09_chunks"
   ],
   "note": ""
  },
  {
   "property": "C10",
   "status": "proved",
   "theorems": [
    "SecDec.Misc.C10_det",
    "SecDec.Misc.C10_det_nonsquare"
   ],
   "note": ""
  },
  {
   "property": "C11",
   "status": "proved",
   "theorems": [
    "SecDec.Misc.C11_argsort",
    "SecDec.Misc.C11_rowLe_spec"
   ],
   "note": ""
  },
  {
   "property": "C12",
   "status": "proved",
   "theorems": [
    "SecDec.Misc.C12_rec_subs",
    "SecDec.Misc.C12_rec_subs_fixpoint"
   ],
   "note": ""
  },
  {
   "property": "C13",
   "status": "proved",
   "theorems": [
    "SecDec.MatrixSort.C13_pak_only_permutes",
    "SecDec.MatrixSort.C13_pak_groups_only_permutes",
    "SecDec.MatrixSort.C13_pak_canonical",
    "SecDec.MatrixSort.C13_pak_decides_equivalence",
    "SecDec.MatrixSort.C13_pak_one_column_not_canonical",
    "SecDec.MatrixSort.C13_light_only_permutes",
    "SecDec.MatrixSort.C13_iterative_terminates_and_permutes"
   ],
   "note": ""
  },
  {
   "property": "C14",
   "status": "proved",
   "theorems": [
    "SecDec.Squash.C14_collision_safe_hash",
    "SecDec.Squash.C14_squash_preserves_total",
    "SecDec.Squash.C14_pak_finds_all_symmetries",
    "SecDec.Squash.C14_squash_succeeds",
    "SecDec.Squash.C14_squash_unit_cube",
    "SecDec.Squash.C14_indices_ignore_jacobian_power"
   ],
   "note": ""
  },
  {
   "property": "C15",
   "status": "proved",
   "theorems": [
    "SecDec.Decomp.C15_iteration_step_preserves_integral",
    "SecDec.Decomp.C15_iterative_decomposition_preserves_integral"
   ],
   "note": ""
  },
  {
   "property": "C16",
   "status": "proved",
   "theorems": [
    "SecDec.Decomp.C16_constructor_raises",
    "SecDec.Decomp.C16_constructor_refactorizes",
    "SecDec.Decomp.C16_find_singular_set",
    "SecDec.Decomp.C16_iterative_decomposition_standard_form",
    "SecDec.Decomp.C16_iterative_decomposition_may_not_terminate"
   ],
   "note": ""
  },
  {
   "property": "C17",
   "status": "proved",
   "theorems": [
    "SecDec.Decomp.C17_primary_sectors",
    "SecDec.Decomp.C17_primary_sectors_single",
    "SecDec.Decomp.C17_primary_decomposition_integral",
    "SecDec.Decomp.C17_primary_decomposition_integral_single"
   ],
   "note": ""
  },
  {
   "property": "C18",
   "status": "proved",
   "theorems": [
    "SecDec.Splitting.C18_remap_one_to_zero",
    "SecDec.Splitting.C18_find_singular_sets_at_one",
    "SecDec.Splitting.C18_split_preserves_integral",
    "SecDec.Splitting.C18_split_singular_preserves_integral",
    "SecDec.Splitting.C18_split_singular_variables",
    "SecDec.Splitting.C18_split_succeeds"
   ],
   "note": ""
  },
  {
   "property": "C19",
   "status": "proved",
   "theorems": [
    "SecDec.Geometric.C19_transform_variables",
    "SecDec.Geometric.C19_cone_sector",
    "SecDec.Geometric.C19_make_sector_eq_cone_sector",
    "SecDec.Geometric.C19_geometric_decomposition",
    "SecDec.Decomp.C19_cheng_wu"
   ],
   "note": ""
  },
  {
   "property": "C20",
   "status": "proved",
   "theorems": [
    "SecDec.Subtraction.C20_regulated_value",
    "SecDec.Subtraction.C20_pole_part_preserves_integral",
    "SecDec.Subtraction.C20_terms_integrable",
    "SecDec.Subtraction.C20_finite_at_zero",
    "SecDec.Subtraction.C20_pole_factors",
    "SecDec.Subtraction.C20_one_over_zero",
    "SecDec.Subtraction.C20_one_over_zero_detected",
    "SecDec.Subtraction.C20_one_over_zero_iff",
    "SecDec.Subtraction.C20_pole_structure",
    "SecDec.Subtraction.C20_integrable_singularity_rejected"
   ],
   "note": ""
  },
  {
   "property": "C21",
   "status": "partial",
   "theorems": [
    "SecDec.Subtraction.C21_preserves_integral_partial",
    "SecDec.Subtraction.C21_goal_reached",
    "SecDec.Subtraction.C21_finite_at_zero",
    "SecDec.Subtraction.C21_number_of_terms",
    "SecDec.Subtraction.C21_terminates",
    "SecDec.Subtraction.C21_one_over_zero",
    "SecDec.Subtraction.C21_one_over_zero_detected",
    "SecDec.Subtraction.C21_boundary_term_wrong",
    "SecDec.Subtraction.C21_regulated_value_partial"
   ],
   "note": "Everything proved if no exponent inside cal_I is a positive integer; with a positive integer exponent the boundary term can be wrong in the code (C21_boundary_term_wrong, consequence of the defect C07_simplify_changes_value)."
  },
  {
   "property": "C22",
   "status": "proved",
   "theorems": [
    "SecDec.C22_one_variable",
    "SecDec.C22_order_error_exact",
    "SecDec.C22_order_error_no_terms",
    "SecDec.C22_leading_coefficient",
    "SecDec.C22_several_variables",
    "SecDec.C22_generic",
    "SecDec.C22_expansion_unique",
    "SecDec.C22_succeeds",
    "SecDec.C22_taylor",
    "SecDec.C22_spurious_order_error"
   ],
   "note": ""
  },
  {
   "property": "C23",
   "status": "proved",
   "theorems": [
    "SecDec.Regions.C23_apply_region",
    "SecDec.Regions.C23_derive_prod",
    "SecDec.Regions.C23_expand_region",
    "SecDec.Regions.C23_expand_region_negative",
    "SecDec.Regions.C23_region",
    "SecDec.Regions.C23_region_order",
    "SecDec.Regions.C23_region_succeeds",
    "SecDec.Regions.C23_zero_exponent"
   ],
   "note": ""
  },
  {
   "property": "C24",
   "status": "proved",
   "theorems": [
    "SecDec.Disteval.C24_delivery",
    "SecDec.Disteval.C24_at_most_once",
    "SecDec.Disteval.C24_exactly_once",
    "SecDec.Disteval.C24_multicall_steals_pending_call",
    "SecDec.Disteval.C24_multicall_results",
    "SecDec.Disteval.C24_multicall_waits",
    "SecDec.Disteval.C24_multicall_two_errors_raise"
   ],
   "note": ""
  },
  {
   "property": "C25",
   "status": "proved",
   "theorems": [
    "SecDec.Disteval.C25_npending_exact",
    "SecDec.Disteval.C25_drain_returns_only_when_done",
    "SecDec.Disteval.C25_no_lost_wakeup",
    "SecDec.Disteval.C25_drain_returns",
    "SecDec.Disteval.C25_drain_assertion_holds",
    "SecDec.Disteval.C25_double_cancel_breaks_count"
   ],
   "note": ""
  },
  {
   "property": "C26",
   "status": "proved",
   "theorems": [
    "SecDec.Disteval.Eval.C26_one_parameter_set",
    "SecDec.Disteval.Eval.C26_cancelled_answers_ignored",
    "SecDec.Disteval.Eval.C26_open_requests_current",
    "SecDec.Disteval.Eval.C26_scheduler_used_legally",
    "SecDec.Disteval.Eval.C26_timeout_mixes_parameters"
   ],
   "note": ""
  },
  {
   "property": "C27",
   "status": "proved",
   "theorems": [
    "SecDec.Orders.C27_bracket_mul",
    "SecDec.Orders.C27_bracket_mul_general"
   ],
   "note": ""
  },
  {
   "property": "C28",
   "status": "proved",
   "theorems": [
    "SecDec.AdjustN.C28_target_met_uncapped",
    "SecDec.AdjustN.C28_cheapest_uncapped",
    "SecDec.AdjustN.C28_target_met_capped",
    "SecDec.AdjustN.C28_gives_up_only_if_unreachable",
    "SecDec.AdjustN.C28_max_respected",
    "SecDec.AdjustN.C28_integer_plan",
    "SecDec.AdjustN.C28_all_amplitudes",
    "SecDec.AdjustN.C28_early_return_below_minimum"
   ],
   "note": ""
  },
  {
   "property": "C29",
   "status": "proved",
   "theorems": [
    "SecDec.GenVec.C29_smallest_lattice",
    "SecDec.GenVec.C29_error_iff",
    "SecDec.GenVec.C29_max_lattice_size",
    "SecDec.GenVec.C29_succeeds_iff",
    "SecDec.GenVec.C29_fraction_truncated"
   ],
   "note": ""
  },
  {
   "property": "C30",
   "status": "proved",
   "theorems": [
    "SecDec.Orders.C30_amplitude_exact",
    "SecDec.Orders.C30_no_error",
    "SecDec.Orders.C30_only_requested",
    "SecDec.Orders.C30_one_regulator",
    "SecDec.Orders.C30_common_minimum",
    "SecDec.Orders.C30_integral_exact",
    "SecDec.Orders.C30_package_orders_too_low",
    "SecDec.Orders.C30_two_regulators_wrong"
   ],
   "note": ""
  },
  {
   "property": "C31",
   "status": "proved",
   "theorems": [
    "SecDec.FromGraph.C31_U_terms",
    "SecDec.FromGraph.C31_U",
    "SecDec.FromGraph.C31_F"
   ],
   "note": ""
  },
  {
   "property": "C32",
   "status": "proved",
   "theorems": [
    "SecDec.LoopCommon.C32_derivatives",
    "SecDec.LoopCommon.C32_same_parameters",
    "SecDec.LoopCommon.C32_integrand",
    "SecDec.LoopCommon.C32_graph_exponent",
    "SecDec.LoopCommon.C32_bridge_defect"
   ],
   "note": ""
  },
  {
   "property": "C33",
   "status": "proved",
   "theorems": [
    "SecDec.Cxx.C33_add",
    "SecDec.Cxx.C33_sub",
    "SecDec.Cxx.C33_mul",
    "SecDec.Cxx.C33_div",
    "SecDec.Cxx.C33_neg",
    "SecDec.Cxx.C33_mul_scalar",
    "SecDec.Cxx.C33_div_scalar",
    "SecDec.Cxx.C33_add_scalar",
    "SecDec.Cxx.C33_scalar_div",
    "SecDec.Cxx.C33_mismatch",
    "SecDec.Cxx.C33_nested",
    "SecDec.Cxx.C33_constructor"
   ],
   "note": ""
  },
  {
   "property": "C34",
   "status": "proved",
   "theorems": [
    "SecDec.Template.C34_validate",
    "SecDec.Template.C34_validate_internal",
    "SecDec.Template.C34_validate_accepts_comma",
    "SecDec.Template.C34_transforms",
    "SecDec.Template.C34_template",
    "SecDec.Template.C34_escaped_instruction",
    "SecDec.Template.C34_tree"
   ],
   "note": ""
  },
  {
   "property": "C35",
   "status": "proved",
   "theorems": [
    "SecDec.FromProps.C35_det",
    "SecDec.FromProps.C35_adjugate",
    "SecDec.FromProps.C35_degree",
    "SecDec.FromProps.C35_U_derivative",
    "SecDec.FromProps.C35_momentum_space",
    "SecDec.FromProps.C35_truncation_defect",
    "SecDec.FromProps.C35_U_derivatives_defect"
   ],
   "note": ""
  },
  {
   "property": "C36",
   "status": "proved",
   "theorems": [
    "SecDec.Orders.C36_sums",
    "SecDec.Orders.C36_integrals"
   ],
   "note": ""
  },
  {
   "property": "C37",
   "status": "proved",
   "theorems": [
    "SecDec.Expr.C37_simplify_terminates",
    "SecDec.Expr.C37_derive_terminates",
    "SecDec.Expr.C37_replace_terminates",
    "SecDec.Expr.C37_derivative_exists",
    "SecDec.Expr.C37_empty_sum",
    "SecDec.Subtraction.C37_pole_part_terminates",
    "SecDec.Subtraction.C37_pole_part_succeeds",
    "SecDec.Subtraction.C37_parts_terminates",
    "SecDec.Subtraction.C37_parts_succeeds",
    "SecDec.Expansion.C37_taylor_terminates",
    "SecDec.Expansion.C37_taylor_succeeds"
   ],
   "note": ""
  },
  {
   "property": "C38",
   "status": "proved",
   "theorems": [
    "SecDec.Exparse.C38_value",
    "SecDec.Exparse.C38_returns",
    "SecDec.Exparse.C38_sign_lost_defect",
    "SecDec.Exparse.C38_division_defect",
    "SecDec.Exparse.C38_unknown_is_zero_defect"
   ],
   "note": ""
  },
  {
   "property": "C39",
   "status": "proved",
   "theorems": [
    "SecDec.Unc.C39_real",
    "SecDec.Unc.C39_complex",
    "SecDec.Unc.C39_sum",
    "SecDec.Unc.C39_repeated_products_defect"
   ],
   "note": ""
  },
  {
   "property": "C40",
   "status": "proved",
   "theorems": [
    "SecDec.Refine.C40_goal_met",
    "SecDec.Refine.C40_terminates",
    "SecDec.Refine.C40_error_never_grows",
    "SecDec.Refine.C40_wall_clock",
    "SecDec.Refine.C40_plan_meets_goal",
    "SecDec.Refine.C40_merge",
    "SecDec.Refine.C40_maxincreasefac_defect",
    "SecDec.Refine.C40_unrefinable_defect",
    "SecDec.Refine.C40_complex_coefficient_defect"
   ],
   "note": ""
  },
  {
   "property": "C41",
   "status": "proved",
   "theorems": [
    "SecDec.Deform.C41_optimize",
    "SecDec.Deform.C41_sign_check",
    "SecDec.Deform.C41_sign_check_keeps",
    "SecDec.Deform.C41_optimize_terminates",
    "SecDec.Deform.C41_minimum_defect",
    "SecDec.Deform.C41_retry",
    "SecDec.Deform.C41_once_defect"
   ],
   "note": ""
  },
  {
   "property": "C42",
   "status": "proved",
   "theorems": [
    "SecDec.Qmc.C42_mulmod",
    "SecDec.Qmc.C42_npow",
    "SecDec.Qmc.C42_cpu",
    "SecDec.Qmc.C42_cpu_range",
    "SecDec.Qmc.C42_cuda",
    "SecDec.Qmc.C42_workers_agree",
    "SecDec.Qmc.C42_split",
    "SecDec.Qmc.C42_transform",
    "SecDec.Qmc.C42_transform_range",
    "SecDec.Qmc.C42_unbiased"
   ],
   "note": ""
  },
  {
   "property": "C43",
   "status": "proved",
   "theorems": [
    "SecDec.Qmc.C43_value",
    "SecDec.Qmc.C43_value_integer",
    "SecDec.Qmc.C43_value_defect",
    "SecDec.Qmc.C43_proposal_defect",
    "SecDec.Qmc.C43_variance",
    "SecDec.Qmc.C43_single_shift_defect",
    "SecDec.Qmc.C43_update_re",
    "SecDec.Qmc.C43_update_defect"
   ],
   "note": ""
  },
  {
   "property": "C44",
   "status": "proved",
   "theorems": [
    "SecDec.Func.C44_chain_rule",
    "SecDec.Func.C44_compute_derivatives",
    "SecDec.Func.C44_insertion",
    "SecDec.Func.C44_maxdegrees",
    "SecDec.Func.C44_names",
    "SecDec.Func.C44_names_of_functions",
    "SecDec.Func.C44_name_collision",
    "SecDec.Func.C44_too_many_arguments"
   ],
   "note": ""
  },
  {
   "property": "C45",
   "status": "proved",
   "theorems": [
    "SecDec.Contour.C45_jacobian",
    "SecDec.Contour.C45_integral",
    "SecDec.Contour.C45_prescription",
    "SecDec.Contour.C45_endpoints",
    "SecDec.Contour.C45_vanishing_calls",
    "SecDec.Contour.C45_sign_small",
    "SecDec.Contour.C45_search_terminates",
    "SecDec.Contour.C45_log",
    "SecDec.Contour.C45_pow",
    "SecDec.Contour.C45_pow_integer",
    "SecDec.Contour.C45_int_pow"
   ],
   "note": ""
  },
  {
   "property": "C46",
   "status": "proved",
   "theorems": [
    "SecDec.SectorExp.C46_analytic_continuation",
    "SecDec.SectorExp.C46_sector_laurent_coefficients",
    "SecDec.SectorExp.C46_sector_succeeds",
    "SecDec.SectorExp.C46_sector_regulated",
    "SecDec.SectorExp.C46_sector_by_parts_regulated",
    "SecDec.SectorExp.C46_sector_by_parts_succeeds"
   ],
   "note": ""
  },
  {
   "property": "C47",
   "status": "proved",
   "theorems": [
    "SecDec.FormDef.C47_value_preserved",
    "SecDec.FormDef.C47_names",
    "SecDec.FormDef.C47_lines_short",
    "SecDec.FormDef.C47_functions_disjoint",
    "SecDec.FormDef.C47_terminates",
    "SecDec.FormDef.C47_succeeds",
    "SecDec.FormDef.C47_single_term_raises",
    "SecDec.FormDef.C47_files_distinct"
   ],
   "note": ""
  },
  {
   "property": "C48",
   "status": "proved",
   "theorems": [
    "SecDec.SeriesText.C48_text_read",
    "SecDec.SeriesText.C48_ginac_value",
    "SecDec.SeriesText.C48_mathematica_value",
    "SecDec.SeriesText.C48_json_table",
    "SecDec.SeriesText.C48_mathematica_missing_parentheses"
   ],
   "note": ""
  },
  {
   "property": "C49",
   "status": "proved",
   "theorems": [
    "SecDec.SeriesText.C49_convert",
    "SecDec.SeriesText.C49_sum",
    "SecDec.SeriesText.C49_nan_dropped",
    "SecDec.SeriesText.C49_empty_sum_raises"
   ],
   "note": ""
  },
  {
   "property": "C50",
   "status": "proved",
   "theorems": [
    "SecDec.Numer.C50_tensors",
    "SecDec.Numer.C50_moments",
    "SecDec.Numer.C50_loop_integral",
    "SecDec.Numer.C50_metrics_free"
   ],
   "note": ""
  },
  {
   "property": "C51",
   "status": "proved",
   "theorems": [
    "SecDec.LoopMeasure.C51_vector_Q",
    "SecDec.LoopMeasure.C51_loop_integral",
    "SecDec.LoopMeasure.C51_primary_sectors"
   ],
   "note": ""
  },
  {
   "property": "C52",
   "status": "proved",
   "theorems": [
    "SecDec.ExtraReg.C52_valid",
    "SecDec.ExtraReg.C52_complete",
    "SecDec.ExtraReg.C52_constraints",
    "SecDec.ExtraReg.C52_suggested",
    "SecDec.ExtraReg.C52_endless_defect"
   ],
   "note": ""
  },
  {
   "property": "C53",
   "status": "proved",
   "theorems": [
    "SecDec.LeadingOrder.C53_leading_order",
    "SecDec.LeadingOrder.C53_total",
    "SecDec.LeadingOrder.C53_unique",
    "SecDec.LeadingOrder.C53_exists",
    "SecDec.LeadingOrder.C53_convergent",
    "SecDec.LeadingOrder.C53_nonlinear_defect",
    "SecDec.LeadingOrder.C53_faster_defect"
   ],
   "note": ""
  },
  {
   "property": "C54",
   "status": "proved",
   "theorems": [
    "SecDec.Formset.C54_calc_consistent",
    "SecDec.Formset.C54_calc_keeps",
    "SecDec.Formset.C54_calc_idempotent",
    "SecDec.Formset.C54_calc_enlarges",
    "SecDec.Formset.C54_scale_lowest",
    "SecDec.Formset.C54_scale_fits",
    "SecDec.Formset.C54_package_memory",
    "SecDec.Formset.C54_main_fits",
    "SecDec.Formset.C54_jobs_share",
    "SecDec.Formset.C54_readable_number"
   ],
   "note": ""
  },
  {
   "property": "C55",
   "status": "proved",
   "theorems": [
    "SecDec.Iterate.C55_median_candidate",
    "SecDec.Iterate.C55_every_job_has_a_lattice",
    "SecDec.Iterate.C55_standard_jobs_tabulated",
    "SecDec.Iterate.C55_standard_terminates",
    "SecDec.Iterate.C55_proposals",
    "SecDec.Iterate.C55_standard_values",
    "SecDec.Iterate.C55_first_phase_defect"
   ],
   "note": ""
  },
  {
   "property": "C56",
   "status": "proved",
   "theorems": [
    "SecDec.Params.C56_lists_exact",
    "SecDec.Params.C56_lists_succeed",
    "SecDec.Params.C56_too_many",
    "SecDec.Params.C56_own_dictionary",
    "SecDec.Params.C56_own_dictionary_missing",
    "SecDec.Params.C56_omitted",
    "SecDec.Params.C56_coefficient_texts",
    "SecDec.Params.C56_command_line",
    "SecDec.Params.C56_command_line_total",
    "SecDec.Params.C56_array_shorthand",
    "SecDec.Params.C56_time_units",
    "SecDec.Params.C56_stale_values",
    "SecDec.Params.C56_poisoned",
    "SecDec.Params.C56_callers_dictionary_changed"
   ],
   "note": ""
  },
  {
   "property": "C57",
   "status": "proved",
   "theorems": [
    "SecDec.Package.C57_continuation_exists",
    "SecDec.Package.C57_continuation_unique",
    "SecDec.Package.C57_laurent_coefficients",
    "SecDec.Package.C57_package_succeeds"
   ],
   "note": ""
  },
  {
   "property": "C58",
   "status": "proved",
   "theorems": [
    "SecDec.LoopPackage.C58_continuation_exists",
    "SecDec.LoopPackage.C58_loop_integral_laurent"
   ],
   "note": ""
  },
  {
   "property": "C59",
   "status": "proved",
   "theorems": [
    "SecDec.Amplitude.C59_amplitude_laurent",
    "SecDec.Amplitude.C59_integral_laurent",
    "SecDec.Amplitude.C59_make_package",
    "SecDec.Amplitude.C59_loop_package"
   ],
   "note": ""
  },
  {
   "property": "C60",
   "status": "proved",
   "theorems": [
    "SecDec.Geometric.C60_generate_fan",
    "SecDec.Geometric.C60_ku_decomposition",
    "SecDec.Geometric.C60_duplicate_exponents"
   ],
   "note": ""
  },
  {
   "property": "C61",
   "status": "proved",
   "theorems": [
    "SecDec.Geometric.C61_geometric_decomposition",
    "SecDec.Geometric.C61_cheng_wu_geometric",
    "SecDec.Geometric.C61_duplicate_exponents"
   ],
   "note": ""
  },
  {
   "property": "C62",
   "status": "proved",
   "theorems": [
    "SecDec.Package.C62_no_primary_laurent",
    "SecDec.Package.C62_no_primary_continuation",
    "SecDec.Package.C62_no_primary_succeeds",
    "SecDec.Package.C62_geometric_ends",
    "SecDec.Package.C62_homogeneous_distinct",
    "SecDec.Package.C62_strategy_independent",
    "SecDec.Package.C62_no_primary_independent"
   ],
   "note": ""
  },
  {
   "property": "C63",
   "status": "proved",
   "theorems": [
    "SecDec.FindRegions.C63_find_regions",
    "SecDec.FindRegions.C63_find_regions_all",
    "SecDec.FindRegions.C63_scaleless_error",
    "SecDec.FindRegions.C63_make_regions",
    "SecDec.FindRegions.C63_make_regions_sum",
    "SecDec.FindRegions.C63_leading_part",
    "SecDec.FindRegions.C63_scaleless_integral",
    "SecDec.FindRegions.C63_unsorted_indices_defect",
    "SecDec.FindRegions.C63_negative_index_defect"
   ],
   "note": ""
  },
  {
   "property": "C64",
   "status": "proved",
   "theorems": [
    "SecDec.SplitDecomp.C64_split_decomposition",
    "SecDec.SplitDecomp.C64_split_sectors"
   ],
   "note": ""
  },
  {
   "property": "C65",
   "status": "proved",
   "theorems": [
    "SecDec.Normaliz.C65_run_card",
    "SecDec.Normaliz.C65_read_file",
    "SecDec.Normaliz.C65_triangulate",
    "SecDec.Normaliz.C65_triangulate_refuses",
    "SecDec.Normaliz.C65_complete_representation",
    "SecDec.Normaliz.C65_rational_vertices_defect"
   ],
   "note": ""
  },
  {
   "property": "C66",
   "status": "proved",
   "theorems": [
    "SecDec.Coeff.C66_one_meaning",
    "SecDec.Coeff.C66_text",
    "SecDec.Coeff.C66_text_strings",
    "SecDec.Coeff.C66_powers",
    "SecDec.Coeff.C66_parameters",
    "SecDec.Coeff.C66_leading_orders",
    "SecDec.Coeff.C66_zero",
    "SecDec.Coeff.C66_random",
    "SecDec.Coeff.C66_maxorder_defect",
    "SecDec.Coeff.C66_required_orders",
    "SecDec.Coeff.C66_required_orders_defect",
    "SecDec.Coeff.C66_file",
    "SecDec.Coeff.C66_lines_defect",
    "SecDec.Coeff.C66_sums",
    "SecDec.Coeff.C66_indices",
    "SecDec.Coeff.C66_indices_exist",
    "SecDec.Coeff.C66_given"
   ],
   "note": ""
  },
  {
   "property": "C67",
   "status": "proved",
   "theorems": [
    "SecDec.Transforms.C67_korobov",
    "SecDec.Transforms.C67_sidi",
    "SecDec.Transforms.C67_baker",
    "SecDec.Transforms.C67_polysingular",
    "SecDec.Transforms.C67_integrate",
    "SecDec.Transforms.C67_periodic",
    "SecDec.Transforms.C67_named"
   ],
   "note": ""
  },
  {
   "property": "C68",
   "status": "proved",
   "theorems": [
    "SecDec.Sampler.C68_packages",
    "SecDec.Sampler.C68_batching",
    "SecDec.Sampler.C68_threads",
    "SecDec.Sampler.C68_threads_end",
    "SecDec.Sampler.C68_serial",
    "SecDec.Sampler.C68_sample",
    "SecDec.Sampler.C68_more_shifts",
    "SecDec.Sampler.C68_integrate",
    "SecDec.Sampler.C68_no_exception",
    "SecDec.Sampler.C68_median"
   ],
   "note": ""
  },
  {
   "property": "C69",
   "status": "proved",
   "theorems": [
    "SecDec.Container.C69_programs",
    "SecDec.Container.C69_programs_minus",
    "SecDec.Container.C69_minus_defect",
    "SecDec.Container.C69_minus_self_defect",
    "SecDec.Container.C69_minus_temporary_defect",
    "SecDec.Container.C69_integral_sum",
    "SecDec.Container.C69_cuba_dim",
    "SecDec.Container.C69_separate",
    "SecDec.Container.C69_multi",
    "SecDec.Container.C69_errors",
    "SecDec.Container.C69_errors_end"
   ],
   "note": ""
  },
  {
   "property": "C70",
   "status": "proved",
   "theorems": [
    "SecDec.FromGraph.C70_lists",
    "SecDec.FromGraph.C70_numbered",
    "SecDec.FromGraph.C70_loops",
    "SecDec.FromGraph.C70_U",
    "SecDec.FromGraph.C70_F",
    "SecDec.FromGraph.C70_zero_loop",
    "SecDec.FromGraph.C70_sunrise"
   ],
   "note": ""
  },
  {
   "property": "C71",
   "status": "proved",
   "theorems": [
    "SecDec.ParseRegions.C71_value",
    "SecDec.ParseRegions.C71_drop",
    "SecDec.ParseRegions.C71_shape",
    "SecDec.ParseRegions.C71_parse",
    "SecDec.ParseRegions.C71_from_expression"
   ],
   "note": ""
  },
  {
   "property": "C72",
   "status": "proved",
   "theorems": [
    "SecDec.Prefactor.C72_ginac",
    "SecDec.Prefactor.C72_ginac_total",
    "SecDec.Prefactor.C72_sympy",
    "SecDec.Prefactor.C72_sympy_error",
    "SecDec.Prefactor.C72_parameters",
    "SecDec.Prefactor.C72_gap"
   ],
   "note": ""
  },
  {
   "property": "C73",
   "status": "proved",
   "theorems": [
    "SecDec.Dreadnaut.C73_preserves_total",
    "SecDec.Dreadnaut.C73_finds_all_symmetries"
   ],
   "note": "dreadnaut enters through its contract: the canonical graph is a colour-compatible relabelling (and, for completeness, the same for isomorphic graphs; hashes of the graphs at hand do not collide); both contracts are shown to be satisfiable"
  },
  {
   "property": "C74",
   "status": "proved",
   "theorems": [
    "SecDec.Convert.C74_value",
    "SecDec.Convert.C74_succeeds",
    "SecDec.Convert.C74_functions",
    "SecDec.Convert.C74_no_variables"
   ],
   "note": "sp.poly enters through its contract: equal value, coefficients independent of the variables, numbers and symbols are accepted"
  },
  {
   "property": "C75",
   "status": "proved",
   "theorems": [
    "SecDec.LibraryCall.C75_call",
    "SecDec.LibraryCall.C75_errormode_enum",
    "SecDec.LibraryCall.C75_errormode",
    "SecDec.LibraryCall.C75_cuhre_after_cuda_fails",
    "SecDec.LibraryCall.C75_assigned_integrator_fails",
    "SecDec.LibraryCall.C75_result",
    "SecDec.LibraryCall.C75_ends",
    "SecDec.LibraryCall.C75_hangs",
    "SecDec.LibraryCall.C75_wrong_number"
   ],
   "note": "counterexamples for the excluded histories: C75_cuhre_after_cuda_fails (use_Cuhre on a CUDA library), C75_assigned_integrator_fails (assignment to integrator); C75_hangs: the call never ends after an exception in the thread"
  }
 ]
}