# Axioms of the property theorems

Output of `#print axioms` for every theorem of MANIFEST.json, grouped.

## Classical.choice, Quot.sound, propext

* `SecDec.AdjustN.C28_all_amplitudes`
* `SecDec.AdjustN.C28_cheapest_uncapped`
* `SecDec.AdjustN.C28_early_return_below_minimum`
* `SecDec.AdjustN.C28_gives_up_only_if_unreachable`
* `SecDec.AdjustN.C28_integer_plan`
* `SecDec.AdjustN.C28_max_respected`
* `SecDec.AdjustN.C28_target_met_capped`
* `SecDec.AdjustN.C28_target_met_uncapped`
* `SecDec.Amplitude.C59_amplitude_laurent`
* `SecDec.Amplitude.C59_integral_laurent`
* `SecDec.Amplitude.C59_loop_package`
* `SecDec.Amplitude.C59_make_package`
* `SecDec.C22_expansion_unique`
* `SecDec.C22_generic`
* `SecDec.C22_leading_coefficient`
* `SecDec.C22_one_variable`
* `SecDec.C22_order_error_exact`
* `SecDec.C22_order_error_no_terms`
* `SecDec.C22_several_variables`
* `SecDec.C22_spurious_order_error`
* `SecDec.C22_succeeds`
* `SecDec.C22_taylor`
* `SecDec.Coeff.C66_file`
* `SecDec.Coeff.C66_given`
* `SecDec.Coeff.C66_leading_orders`
* `SecDec.Coeff.C66_lines_defect`
* `SecDec.Coeff.C66_maxorder_defect`
* `SecDec.Coeff.C66_parameters`
* `SecDec.Coeff.C66_powers`
* `SecDec.Coeff.C66_random`
* `SecDec.Coeff.C66_required_orders`
* `SecDec.Coeff.C66_required_orders_defect`
* `SecDec.Coeff.C66_text`
* `SecDec.Coeff.C66_zero`
* `SecDec.Container.C69_cuba_dim`
* `SecDec.Container.C69_errors`
* `SecDec.Container.C69_errors_end`
* `SecDec.Container.C69_integral_sum`
* `SecDec.Container.C69_minus_defect`
* `SecDec.Container.C69_minus_self_defect`
* `SecDec.Container.C69_minus_temporary_defect`
* `SecDec.Container.C69_multi`
* `SecDec.Container.C69_programs`
* `SecDec.Container.C69_programs_minus`
* `SecDec.Container.C69_separate`
* `SecDec.Contour.C45_endpoints`
* `SecDec.Contour.C45_int_pow`
* `SecDec.Contour.C45_integral`
* `SecDec.Contour.C45_jacobian`
* `SecDec.Contour.C45_log`
* `SecDec.Contour.C45_pow`
* `SecDec.Contour.C45_pow_integer`
* `SecDec.Contour.C45_prescription`
* `SecDec.Contour.C45_search_terminates`
* `SecDec.Contour.C45_sign_small`
* `SecDec.Contour.C45_vanishing_calls`
* `SecDec.Convert.C74_functions`
* `SecDec.Convert.C74_no_variables`
* `SecDec.Convert.C74_succeeds`
* `SecDec.Convert.C74_value`
* `SecDec.Cxx.C33_add`
* `SecDec.Cxx.C33_add_scalar`
* `SecDec.Cxx.C33_constructor`
* `SecDec.Cxx.C33_div`
* `SecDec.Cxx.C33_div_scalar`
* `SecDec.Cxx.C33_mul`
* `SecDec.Cxx.C33_mul_scalar`
* `SecDec.Cxx.C33_neg`
* `SecDec.Cxx.C33_nested`
* `SecDec.Cxx.C33_scalar_div`
* `SecDec.Cxx.C33_sub`
* `SecDec.Decomp.C15_iteration_step_preserves_integral`
* `SecDec.Decomp.C15_iterative_decomposition_preserves_integral`
* `SecDec.Decomp.C16_constructor_raises`
* `SecDec.Decomp.C16_constructor_refactorizes`
* `SecDec.Decomp.C16_find_singular_set`
* `SecDec.Decomp.C16_iterative_decomposition_may_not_terminate`
* `SecDec.Decomp.C16_iterative_decomposition_standard_form`
* `SecDec.Decomp.C17_primary_decomposition_integral`
* `SecDec.Decomp.C17_primary_decomposition_integral_single`
* `SecDec.Decomp.C17_primary_sectors`
* `SecDec.Decomp.C17_primary_sectors_single`
* `SecDec.Decomp.C19_cheng_wu`
* `SecDec.Deform.C41_minimum_defect`
* `SecDec.Deform.C41_once_defect`
* `SecDec.Deform.C41_optimize`
* `SecDec.Deform.C41_optimize_terminates`
* `SecDec.Deform.C41_retry`
* `SecDec.Deform.C41_sign_check`
* `SecDec.Deform.C41_sign_check_keeps`
* `SecDec.Disteval.C24_at_most_once`
* `SecDec.Disteval.C24_delivery`
* `SecDec.Disteval.C24_exactly_once`
* `SecDec.Disteval.C24_multicall_results`
* `SecDec.Disteval.C25_drain_assertion_holds`
* `SecDec.Disteval.C25_drain_returns`
* `SecDec.Disteval.C25_drain_returns_only_when_done`
* `SecDec.Disteval.C25_no_lost_wakeup`
* `SecDec.Disteval.C25_npending_exact`
* `SecDec.Disteval.Eval.C26_cancelled_answers_ignored`
* `SecDec.Disteval.Eval.C26_one_parameter_set`
* `SecDec.Disteval.Eval.C26_open_requests_current`
* `SecDec.Disteval.Eval.C26_scheduler_used_legally`
* `SecDec.Disteval.Eval.C26_timeout_mixes_parameters`
* `SecDec.Dreadnaut.C73_finds_all_symmetries`
* `SecDec.Dreadnaut.C73_preserves_total`
* `SecDec.Expansion.C37_taylor_succeeds`
* `SecDec.Expansion.C37_taylor_terminates`
* `SecDec.Exparse.C38_division_defect`
* `SecDec.Exparse.C38_returns`
* `SecDec.Exparse.C38_sign_lost_defect`
* `SecDec.Exparse.C38_unknown_is_zero_defect`
* `SecDec.Exparse.C38_value`
* `SecDec.Expr.C04_replace_one_meaningful`
* `SecDec.Expr.C04_replace_tree`
* `SecDec.Expr.C04_replace_zero_meaningful`
* `SecDec.Expr.C04_replace_zero_skips_coefficients`
* `SecDec.Expr.C06_derive_is_partial_derivative`
* `SecDec.Expr.C07_simplify_changes_value`
* `SecDec.Expr.C07_simplify_preserves_value_partial`
* `SecDec.Expr.C37_derivative_exists`
* `SecDec.Expr.C37_derive_terminates`
* `SecDec.Expr.C37_empty_sum`
* `SecDec.Expr.C37_replace_terminates`
* `SecDec.Expr.C37_simplify_terminates`
* `SecDec.ExtraReg.C52_complete`
* `SecDec.ExtraReg.C52_constraints`
* `SecDec.ExtraReg.C52_endless_defect`
* `SecDec.ExtraReg.C52_suggested`
* `SecDec.ExtraReg.C52_valid`
* `SecDec.FindRegions.C63_find_regions`
* `SecDec.FindRegions.C63_find_regions_all`
* `SecDec.FindRegions.C63_leading_part`
* `SecDec.FindRegions.C63_make_regions`
* `SecDec.FindRegions.C63_make_regions_sum`
* `SecDec.FindRegions.C63_negative_index_defect`
* `SecDec.FindRegions.C63_scaleless_error`
* `SecDec.FindRegions.C63_scaleless_integral`
* `SecDec.FindRegions.C63_unsorted_indices_defect`
* `SecDec.FormDef.C47_files_distinct`
* `SecDec.FormDef.C47_functions_disjoint`
* `SecDec.FormDef.C47_lines_short`
* `SecDec.FormDef.C47_names`
* `SecDec.FormDef.C47_single_term_raises`
* `SecDec.FormDef.C47_succeeds`
* `SecDec.FormDef.C47_terminates`
* `SecDec.FormDef.C47_value_preserved`
* `SecDec.Formset.C54_calc_consistent`
* `SecDec.Formset.C54_calc_enlarges`
* `SecDec.Formset.C54_calc_idempotent`
* `SecDec.Formset.C54_jobs_share`
* `SecDec.Formset.C54_main_fits`
* `SecDec.Formset.C54_package_memory`
* `SecDec.Formset.C54_readable_number`
* `SecDec.Formset.C54_scale_fits`
* `SecDec.Formset.C54_scale_lowest`
* `SecDec.FromGraph.C31_F`
* `SecDec.FromGraph.C31_U`
* `SecDec.FromGraph.C31_U_terms`
* `SecDec.FromGraph.C70_F`
* `SecDec.FromGraph.C70_U`
* `SecDec.FromGraph.C70_lists`
* `SecDec.FromGraph.C70_loops`
* `SecDec.FromGraph.C70_numbered`
* `SecDec.FromGraph.C70_sunrise`
* `SecDec.FromGraph.C70_zero_loop`
* `SecDec.FromProps.C35_U_derivative`
* `SecDec.FromProps.C35_U_derivatives_defect`
* `SecDec.FromProps.C35_adjugate`
* `SecDec.FromProps.C35_degree`
* `SecDec.FromProps.C35_det`
* `SecDec.FromProps.C35_momentum_space`
* `SecDec.FromProps.C35_truncation_defect`
* `SecDec.Func.C44_chain_rule`
* `SecDec.Func.C44_compute_derivatives`
* `SecDec.Func.C44_insertion`
* `SecDec.Func.C44_maxdegrees`
* `SecDec.Func.C44_name_collision`
* `SecDec.Func.C44_names`
* `SecDec.Func.C44_names_of_functions`
* `SecDec.Func.C44_too_many_arguments`
* `SecDec.GenVec.C29_error_iff`
* `SecDec.GenVec.C29_fraction_truncated`
* `SecDec.GenVec.C29_smallest_lattice`
* `SecDec.GenVec.C29_succeeds_iff`
* `SecDec.Geometric.C19_cone_sector`
* `SecDec.Geometric.C19_geometric_decomposition`
* `SecDec.Geometric.C19_make_sector_eq_cone_sector`
* `SecDec.Geometric.C19_transform_variables`
* `SecDec.Geometric.C60_duplicate_exponents`
* `SecDec.Geometric.C60_generate_fan`
* `SecDec.Geometric.C60_ku_decomposition`
* `SecDec.Geometric.C61_cheng_wu_geometric`
* `SecDec.Geometric.C61_duplicate_exponents`
* `SecDec.Geometric.C61_geometric_decomposition`
* `SecDec.Iterate.C55_every_job_has_a_lattice`
* `SecDec.Iterate.C55_first_phase_defect`
* `SecDec.Iterate.C55_median_candidate`
* `SecDec.Iterate.C55_proposals`
* `SecDec.Iterate.C55_standard_jobs_tabulated`
* `SecDec.Iterate.C55_standard_terminates`
* `SecDec.Iterate.C55_standard_values`
* `SecDec.LeadingOrder.C53_convergent`
* `SecDec.LeadingOrder.C53_exists`
* `SecDec.LeadingOrder.C53_faster_defect`
* `SecDec.LeadingOrder.C53_leading_order`
* `SecDec.LeadingOrder.C53_nonlinear_defect`
* `SecDec.LeadingOrder.C53_total`
* `SecDec.LeadingOrder.C53_unique`
* `SecDec.LibraryCall.C75_assigned_integrator_fails`
* `SecDec.LibraryCall.C75_call`
* `SecDec.LibraryCall.C75_cuhre_after_cuda_fails`
* `SecDec.LibraryCall.C75_ends`
* `SecDec.LibraryCall.C75_errormode`
* `SecDec.LibraryCall.C75_errormode_enum`
* `SecDec.LibraryCall.C75_result`
* `SecDec.LibraryCall.C75_wrong_number`
* `SecDec.LoopCommon.C32_bridge_defect`
* `SecDec.LoopCommon.C32_derivatives`
* `SecDec.LoopCommon.C32_graph_exponent`
* `SecDec.LoopCommon.C32_integrand`
* `SecDec.LoopCommon.C32_same_parameters`
* `SecDec.LoopMeasure.C51_loop_integral`
* `SecDec.LoopMeasure.C51_primary_sectors`
* `SecDec.LoopMeasure.C51_vector_Q`
* `SecDec.LoopPackage.C58_continuation_exists`
* `SecDec.LoopPackage.C58_loop_integral_laurent`
* `SecDec.MatrixSort.C13_iterative_terminates_and_permutes`
* `SecDec.MatrixSort.C13_light_only_permutes`
* `SecDec.MatrixSort.C13_pak_canonical`
* `SecDec.MatrixSort.C13_pak_decides_equivalence`
* `SecDec.MatrixSort.C13_pak_groups_only_permutes`
* `SecDec.MatrixSort.C13_pak_one_column_not_canonical`
* `SecDec.MatrixSort.C13_pak_only_permutes`
* `SecDec.Misc.C09_all_pairs`
* `SecDec.Misc.C09_chunks`
* `SecDec.Misc.C09_missing`
* `SecDec.Misc.C09_powerset`
* `SecDec.Misc.C09_powerset_order`
* `SecDec.Misc.C09_rangecomb`
* `SecDec.Misc.C10_det`
* `SecDec.Misc.C11_argsort`
* `SecDec.Misc.C11_rowLe_spec`
* `SecDec.Normaliz.C65_complete_representation`
* `SecDec.Normaliz.C65_rational_vertices_defect`
* `SecDec.Normaliz.C65_read_file`
* `SecDec.Normaliz.C65_run_card`
* `SecDec.Normaliz.C65_triangulate`
* `SecDec.Normaliz.C65_triangulate_refuses`
* `SecDec.Numer.C50_loop_integral`
* `SecDec.Numer.C50_metrics_free`
* `SecDec.Numer.C50_moments`
* `SecDec.Numer.C50_tensors`
* `SecDec.Orders.C27_bracket_mul`
* `SecDec.Orders.C27_bracket_mul_general`
* `SecDec.Orders.C30_amplitude_exact`
* `SecDec.Orders.C30_common_minimum`
* `SecDec.Orders.C30_integral_exact`
* `SecDec.Orders.C30_no_error`
* `SecDec.Orders.C30_one_regulator`
* `SecDec.Orders.C30_only_requested`
* `SecDec.Orders.C30_package_orders_too_low`
* `SecDec.Orders.C30_two_regulators_wrong`
* `SecDec.Orders.C36_integrals`
* `SecDec.Orders.C36_sums`
* `SecDec.PRule.C08_productRule_exact`
* `SecDec.PRule.C08_productRule_zero`
* `SecDec.Package.C57_continuation_exists`
* `SecDec.Package.C57_continuation_unique`
* `SecDec.Package.C57_laurent_coefficients`
* `SecDec.Package.C57_package_succeeds`
* `SecDec.Package.C62_geometric_ends`
* `SecDec.Package.C62_homogeneous_distinct`
* `SecDec.Package.C62_no_primary_continuation`
* `SecDec.Package.C62_no_primary_independent`
* `SecDec.Package.C62_no_primary_laurent`
* `SecDec.Package.C62_no_primary_succeeds`
* `SecDec.Package.C62_strategy_independent`
* `SecDec.Params.C56_callers_dictionary_changed`
* `SecDec.Params.C56_coefficient_texts`
* `SecDec.Params.C56_command_line`
* `SecDec.Params.C56_command_line_total`
* `SecDec.Params.C56_lists_exact`
* `SecDec.Params.C56_lists_succeed`
* `SecDec.Params.C56_omitted`
* `SecDec.Params.C56_own_dictionary`
* `SecDec.Params.C56_own_dictionary_missing`
* `SecDec.Params.C56_poisoned`
* `SecDec.Params.C56_stale_values`
* `SecDec.Params.C56_time_units`
* `SecDec.Params.C56_too_many`
* `SecDec.ParseRegions.C71_drop`
* `SecDec.ParseRegions.C71_from_expression`
* `SecDec.ParseRegions.C71_parse`
* `SecDec.ParseRegions.C71_shape`
* `SecDec.ParseRegions.C71_value`
* `SecDec.Poly.C01_arith_eval`
* `SecDec.Poly.C01_arith_formal`
* `SecDec.Poly.C02_simplify_canonical`
* `SecDec.Poly.C02_simplify_idempotent`
* `SecDec.Poly.C02_simplify_normal_form`
* `SecDec.Poly.C03_derive`
* `SecDec.Poly.C04_replace`
* `SecDec.Poly.C04_replace_zero_drops_pole`
* `SecDec.Poly.C05_becomes_zero_for`
* `SecDec.Poly.C05_has_constant_term`
* `SecDec.Poly.C05_refactorize`
* `SecDec.Poly.C05_refactorize_idempotent`
* `SecDec.Prefactor.C72_ginac`
* `SecDec.Prefactor.C72_ginac_total`
* `SecDec.Prefactor.C72_sympy`
* `SecDec.Qmc.C42_cpu`
* `SecDec.Qmc.C42_cpu_range`
* `SecDec.Qmc.C42_cuda`
* `SecDec.Qmc.C42_mulmod`
* `SecDec.Qmc.C42_split`
* `SecDec.Qmc.C42_transform`
* `SecDec.Qmc.C42_transform_range`
* `SecDec.Qmc.C42_unbiased`
* `SecDec.Qmc.C42_workers_agree`
* `SecDec.Qmc.C43_proposal_defect`
* `SecDec.Qmc.C43_single_shift_defect`
* `SecDec.Qmc.C43_update_defect`
* `SecDec.Qmc.C43_update_re`
* `SecDec.Qmc.C43_value`
* `SecDec.Qmc.C43_value_defect`
* `SecDec.Qmc.C43_value_integer`
* `SecDec.Qmc.C43_variance`
* `SecDec.Refine.C40_complex_coefficient_defect`
* `SecDec.Refine.C40_error_never_grows`
* `SecDec.Refine.C40_goal_met`
* `SecDec.Refine.C40_maxincreasefac_defect`
* `SecDec.Refine.C40_merge`
* `SecDec.Refine.C40_plan_meets_goal`
* `SecDec.Refine.C40_terminates`
* `SecDec.Refine.C40_unrefinable_defect`
* `SecDec.Refine.C40_wall_clock`
* `SecDec.Regions.C23_apply_region`
* `SecDec.Regions.C23_derive_prod`
* `SecDec.Regions.C23_expand_region`
* `SecDec.Regions.C23_expand_region_negative`
* `SecDec.Regions.C23_region`
* `SecDec.Regions.C23_region_order`
* `SecDec.Regions.C23_region_succeeds`
* `SecDec.Regions.C23_zero_exponent`
* `SecDec.Sampler.C68_batching`
* `SecDec.Sampler.C68_integrate`
* `SecDec.Sampler.C68_median`
* `SecDec.Sampler.C68_more_shifts`
* `SecDec.Sampler.C68_no_exception`
* `SecDec.Sampler.C68_packages`
* `SecDec.Sampler.C68_sample`
* `SecDec.Sampler.C68_serial`
* `SecDec.Sampler.C68_threads`
* `SecDec.Sampler.C68_threads_end`
* `SecDec.SectorExp.C46_analytic_continuation`
* `SecDec.SectorExp.C46_sector_by_parts_regulated`
* `SecDec.SectorExp.C46_sector_by_parts_succeeds`
* `SecDec.SectorExp.C46_sector_laurent_coefficients`
* `SecDec.SectorExp.C46_sector_regulated`
* `SecDec.SectorExp.C46_sector_succeeds`
* `SecDec.SeriesText.C48_ginac_value`
* `SecDec.SeriesText.C48_json_table`
* `SecDec.SeriesText.C48_mathematica_missing_parentheses`
* `SecDec.SeriesText.C48_mathematica_value`
* `SecDec.SeriesText.C48_text_read`
* `SecDec.SeriesText.C49_convert`
* `SecDec.SeriesText.C49_empty_sum_raises`
* `SecDec.SeriesText.C49_nan_dropped`
* `SecDec.SeriesText.C49_sum`
* `SecDec.SplitDecomp.C64_split_decomposition`
* `SecDec.SplitDecomp.C64_split_sectors`
* `SecDec.Splitting.C18_find_singular_sets_at_one`
* `SecDec.Splitting.C18_remap_one_to_zero`
* `SecDec.Splitting.C18_split_preserves_integral`
* `SecDec.Splitting.C18_split_singular_preserves_integral`
* `SecDec.Splitting.C18_split_singular_variables`
* `SecDec.Splitting.C18_split_succeeds`
* `SecDec.Squash.C14_collision_safe_hash`
* `SecDec.Squash.C14_indices_ignore_jacobian_power`
* `SecDec.Squash.C14_pak_finds_all_symmetries`
* `SecDec.Squash.C14_squash_preserves_total`
* `SecDec.Squash.C14_squash_succeeds`
* `SecDec.Squash.C14_squash_unit_cube`
* `SecDec.Subtraction.C20_finite_at_zero`
* `SecDec.Subtraction.C20_integrable_singularity_rejected`
* `SecDec.Subtraction.C20_one_over_zero`
* `SecDec.Subtraction.C20_one_over_zero_detected`
* `SecDec.Subtraction.C20_one_over_zero_iff`
* `SecDec.Subtraction.C20_pole_factors`
* `SecDec.Subtraction.C20_pole_part_preserves_integral`
* `SecDec.Subtraction.C20_pole_structure`
* `SecDec.Subtraction.C20_regulated_value`
* `SecDec.Subtraction.C20_terms_integrable`
* `SecDec.Subtraction.C21_boundary_term_wrong`
* `SecDec.Subtraction.C21_finite_at_zero`
* `SecDec.Subtraction.C21_goal_reached`
* `SecDec.Subtraction.C21_number_of_terms`
* `SecDec.Subtraction.C21_one_over_zero`
* `SecDec.Subtraction.C21_one_over_zero_detected`
* `SecDec.Subtraction.C21_preserves_integral_partial`
* `SecDec.Subtraction.C21_regulated_value_partial`
* `SecDec.Subtraction.C21_terminates`
* `SecDec.Subtraction.C37_parts_succeeds`
* `SecDec.Subtraction.C37_parts_terminates`
* `SecDec.Subtraction.C37_pole_part_succeeds`
* `SecDec.Subtraction.C37_pole_part_terminates`
* `SecDec.Template.C34_escaped_instruction`
* `SecDec.Template.C34_template`
* `SecDec.Template.C34_transforms`
* `SecDec.Template.C34_tree`
* `SecDec.Template.C34_validate`
* `SecDec.Template.C34_validate_accepts_comma`
* `SecDec.Template.C34_validate_internal`
* `SecDec.Transforms.C67_baker`
* `SecDec.Transforms.C67_integrate`
* `SecDec.Transforms.C67_korobov`
* `SecDec.Transforms.C67_named`
* `SecDec.Transforms.C67_periodic`
* `SecDec.Transforms.C67_polysingular`
* `SecDec.Transforms.C67_sidi`
* `SecDec.Unc.C39_complex`
* `SecDec.Unc.C39_real`
* `SecDec.Unc.C39_repeated_products_defect`
* `SecDec.Unc.C39_sum`

## Quot.sound, propext

* `SecDec.Coeff.C66_indices_exist`
* `SecDec.Coeff.C66_one_meaning`
* `SecDec.Coeff.C66_sums`
* `SecDec.Coeff.C66_text_strings`
* `SecDec.Cxx.C33_mismatch`
* `SecDec.Disteval.C24_multicall_two_errors_raise`
* `SecDec.Disteval.C24_multicall_waits`
* `SecDec.Formset.C54_calc_keeps`
* `SecDec.GenVec.C29_max_lattice_size`
* `SecDec.Misc.C09_powerset_not_multiple_of_stride`
* `SecDec.Misc.C12_rec_subs`
* `SecDec.Misc.C12_rec_subs_fixpoint`
* `SecDec.Params.C56_array_shorthand`
* `SecDec.Poly.C04_replace_rows`
* `SecDec.Poly.C05_has_constant_term_indices`
* `SecDec.Poly.C05_refactorize_empty`
* `SecDec.Poly.C05_refactorize_total`
* `SecDec.Prefactor.C72_parameters`
* `SecDec.Prefactor.C72_sympy_error`
* `SecDec.Qmc.C42_npow`

## none

* `SecDec.Disteval.C24_multicall_steals_pending_call`

## propext

* `SecDec.Coeff.C66_indices`
* `SecDec.Disteval.C25_double_cancel_breaks_count`
* `SecDec.LibraryCall.C75_hangs`
* `SecDec.Misc.C09_powerset_stride_zero`
* `SecDec.Misc.C10_det_nonsquare`
* `SecDec.Prefactor.C72_gap`
