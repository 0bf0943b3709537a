# Axioms of the theorems in MANIFEST.json

Output of `#print axioms` for each theorem, grouped by property. Every theorem uses a subset of `propext`,
`Classical.choice`, `Quot.sound`. "all three" stands for exactly these three.

## C01 (proved)

* `Hiop.Filter.C01_filter_contains_iff`: all three
* `Hiop.Filter.C01_reset_forgets`: all three
* `Hiop.Filter.C01_add_monotone`: all three

## C02 (proved)

* `Hiop.Filter.C02_accept_status`: all three
* `Hiop.Filter.C02_rejected_by_filter_flag`: all three
* `Hiop.Filter.C02_accept_progress`: all three
* `Hiop.Filter.C02_no_return_to_filtered_point`: all three
* `Hiop.Filter.C02_augmentation_rule`: all three
* `Hiop.Filter.C02_no_return`: all three

## C03 (proved)

* `Hiop.Vec.C03_fraction_to_boundary_greatest`: all three
* `Hiop.Vec.C03_fraction_to_boundary_all`: all three
* `Hiop.Iterate.C03_iterate_step_lengths`: all three

## C04 (proved)

* `Hiop.Vec.C04_projection_fails_iff`: all three
* `Hiop.Vec.C04_projection_nearest`: all three
* `Hiop.Vec.C04_projection_strictly_inside`: all three
* `Hiop.Vec.C04_narrow_interval_not_inside`: all three

## C05 (proved)

* `Hiop.Vec.C05_dual_safeguard`: all three
* `Hiop.Vec.C05_dual_positive`: all three

## C06 (proved)

* `Hiop.Iterate.C06_small_slack_rule`: all three
* `Hiop.Iterate.C06_small_slack_bounds`: all three
* `Hiop.Iterate.C06_nan_iff`: all three
* `Hiop.Iterate.C06_defined_of_positive_duals`: propext, Quot.sound
* `Hiop.Iterate.C06_adjusted_bounds_match`: propext, Quot.sound
* `Hiop.Iterate.C06_ieee_zero_dual_nan`: all three
* `Hiop.Iterate.C06_ieee_zero_dual_cap`: all three

## C07 (proved)

* `Hiop.Barrier.C07_barrier_value`: all three
* `Hiop.Barrier.C07_directional_derivative`: all three
* `Hiop.Barrier.C07_damping_in_residual`: all three

## C08 (proved)

* `Hiop.Driver.C08_mu_update`: all three
* `Hiop.Driver.C08_refused_iff`: all three
* `Hiop.Driver.C08_mu_loop`: all three
* `Hiop.Driver.C08_mu_raised_below_floor`: all three
* `Hiop.Driver.C08_elastic_range`: all three
* `Hiop.Driver.C08_elastic_monotone`: all three

## C09 (proved)

* `Hiop.Driver.C09_scaled_error`: all three
* `Hiop.Driver.C09_status_meaning`: all three
* `Hiop.Driver.C09_acceptable_level`: all three

## C10 (partial)

* `Hiop.Perturb.C10_wrong_inertia_accepted`: all three
* `Hiop.Perturb.C10_wrong_inertia_finite`: all three
* `Hiop.Perturb.C10_reachable_consistent_partial`: all three
* `Hiop.Perturb.C10_initial`: all three
* `Hiop.Perturb.C10_dual_first_consistent`: all three
* `Hiop.Perturb.C10_dual_first_accepted`: all three
* `Hiop.Perturb.C10_dual_first_finite`: all three
* `Hiop.Perturb.C10_degenerate_hessian_ignored`: all three
* `Hiop.Perturb.C10_degenerate_mismatch`: all three
* `Hiop.Perturb.C10_degenerate_mismatch_reachable`: all three
* `Hiop.Perturb.C10_assertion_reachable`: all three

## C11 (proved)

* `Hiop.Perturb.C11_inertia_accepts_iff`: all three
* `Hiop.Perturb.C11_inertia_rejects`: propext, Quot.sound
* `Hiop.Perturb.C11_free_accepts_iff`: all three
* `Hiop.Perturb.C11_free_rejects`: propext
* `Hiop.Perturb.C11_factorize`: all three
* `Hiop.Perturb.C11_free_reports_failed_factorization`: all three

## C12 (partial)

* `Hiop.Nlp.C12_bounds_classified`: all three
* `Hiop.Nlp.C12_counts_after_removal`: all three
* `Hiop.Nlp.C12_ineq_classified`: propext, Quot.sound
* `Hiop.Nlp.C12_counts_after_removal_false`: all three

## C13 (proved)

* `Hiop.Nlp.C13_split`: all three
* `Hiop.Nlp.C13_split_merge`: all three
* `Hiop.Nlp.C13_merge_split`: all three

## C14 (partial)

* `Hiop.Nlp.C14_setup_iff`: all three
* `Hiop.Nlp.C14_setup_succeeds`: all three
* `Hiop.Nlp.C14_setup_abort_example`: all three
* `Hiop.Nlp.C14_expand`: all three
* `Hiop.Nlp.C14_restrict`: all three
* `Hiop.Nlp.C14_expand_restrict`: all three
* `Hiop.Nlp.C14_restrict_expand`: all three
* `Hiop.Nlp.C14_jacobian_columns`: all three
* `Hiop.Nlp.C14_jacobian_expand`: all three
* `Hiop.Nlp.C14_history`: all three
* `Hiop.Nlp.C14_returned_point_partial`: all three
* `Hiop.Nlp.C14_returned_point_none_removed`: all three
* `Hiop.Nlp.C14_returned_point_false`: all three

## C15 (partial)

* `Hiop.Nlp.C15_derivatives_consistent`: all three
* `Hiop.Nlp.C15_values_and_points`: all three
* `Hiop.Nlp.C15_reported_objective`: all three
* `Hiop.Nlp.C15_no_instruction_exits`: propext, Quot.sound
* `Hiop.Nlp.C15_reported_objective_second_run`: all three
* `Hiop.Nlp.C15_dense_one_call_jacobian_false`: all three

## C16 (partial)

* `Hiop.Nlp.C16_obj_factor_pos`: all three
* `Hiop.Nlp.C16_obj_factor_le_one_partial`: all three
* `Hiop.Nlp.C16_obj_limit`: all three
* `Hiop.Nlp.C16_obj_limit_false`: all three
* `Hiop.Nlp.C16_obj_factor_gt_one`: all three
* `Hiop.Nlp.C16_con_factor`: all three
* `Hiop.Nlp.C16_con_target`: all three
* `Hiop.Nlp.C16_con_target_not_per_row`: all three
* `Hiop.Nlp.C16_zero_jacobian_block`: all three
* `Hiop.Nlp.C16_unscaled_iff`: all three
* `Hiop.Nlp.C16_round_trip`: all three
* `Hiop.Nlp.C16_round_trip_inv`: all three
* `Hiop.Nlp.C16_cd_factor_consistent`: all three
* `Hiop.Nlp.C16_cd_factor_inconsistent`: all three

## C17 (proved)

* `Hiop.Nlp.C17_relax`: all three
* `Hiop.Nlp.C17_relax_fixed`: all three
* `Hiop.Nlp.C17_tightening_history`: all three
* `Hiop.Nlp.C17_adjust_bounds`: all three

## C18 (partial)

* `Hiop.Kkt.C18_xycyd`: all three
* `Hiop.Kkt.C18_unique`: all three
* `Hiop.Kkt.C18_mds`: all three
* `Hiop.Kkt.C18_low_rank`: all three
* `Hiop.Kkt.C18_low_rank_directions`: all three
* `Hiop.Kkt.C18_dense_partial`: all three
* `Hiop.Kkt.C18_dense_wrong_diagonal`: all three
* `Hiop.Kkt.C18_dense_refuted`: all three
* `Hiop.Sparse.C18_sparse_assembly`: all three
* `Hiop.Sparse.C18_sparse_partial`: all three
* `Hiop.Sparse.C18_sparse_later_calls_refuted`: all three
* `Hiop.Sparse.C18_sparse_dual_perturbation_refuted`: all three

## C19 (partial)

* `Hiop.Kkt.C19_xdycyd`: all three
* `Hiop.Kkt.C19_normal_equations`: all three
* `Hiop.Kkt.C19_condensed_partial`: all three
* `Hiop.Kkt.C19_condensed_ignores_dual_perturbation`: all three
* `Hiop.Kkt.C19_dense_partial`: all three
* `Hiop.Kkt.C19_dense_wrong_diagonal`: all three
* `Hiop.Kkt.C19_dense_refuted`: all three
* `Hiop.Sparse.C19_sparse_assembly`: all three
* `Hiop.Sparse.C19_sparse`: all three

## C20 (proved)

* `Hiop.Kkt.C20_recovery`: all three

## C21 (proved)

* `Hiop.Resid.C21_vectors`: all three
* `Hiop.Resid.C21_blocks_fresh`: all three
* `Hiop.Resid.C21_zero_iff_kkt`: all three
* `Hiop.Resid.C21_norms`: all three
* `Hiop.Resid.C21_zero_errors_optimal`: all three
* `Hiop.Resid.C21_infeas_onenorm`: all three
* `Hiop.Resid.C21_soc`: all three
* `Hiop.Resid.C21_copy_stale_violation`: all three

## C22 (proved)

* `Hiop.Driver.C22_terminates`: all three
* `Hiop.Driver.C22_bound_exists`: all three
* `Hiop.Driver.C22_outcome`: all three
* `Hiop.Driver.C22_trial_bound`: all three
* `Hiop.Driver.C22_user_error`: all three
* `Hiop.Driver.C22_soc_user_error_aborts`: all three
* `Hiop.Driver.C22_accept_every_step_status`: all three
* `Hiop.Driver.C22_zero_min_step_diverges`: all three

## C23 (partial)

* `Hiop.Driver.C23_relative`: all three
* `Hiop.Driver.C23_off`: all three
* `Hiop.Driver.C23_absolute_exact`: all three
* `Hiop.Driver.C23_absolute_partial`: all three
* `Hiop.Driver.C23_absolute_violated`: all three
* `Hiop.Driver.C23_absolute_can_increase`: all three

## C24 (partial)

* `Hiop.Driver.C24_newton_terminates`: all three
* `Hiop.Driver.C24_quasi_newton_terminates`: all three
* `Hiop.Driver.C24_newton_result`: all three
* `Hiop.Driver.C24_quasi_newton_result_partial`: all three
* `Hiop.Driver.C24_no_divergence`: all three
* `Hiop.Driver.C24_completed_iteration_partial`: all three
* `Hiop.Driver.C24_quasi_newton_pending`: all three
* `Hiop.Driver.C24_soft_restoration_swallows_user_error`: all three
* `Hiop.Driver.C24_refactorization_limit_accepts_stale`: all three
* `Hiop.Driver.C24_accept_every_step_goes_to_restoration`: all three

## C25 (proved)

* `Hiop.PriDec.C25_no_failure`: all three
* `Hiop.PriDec.C25_too_few`: propext, Quot.sound
* `Hiop.PriDec.C25_never_twice`: all three
* `Hiop.PriDec.C25_exactly_once`: all three
* `Hiop.PriDec.C25_sum`: all three
* `Hiop.PriDec.C25_average`: all three
* `Hiop.PriDec.C25_local_master_zero`: all three
* `Hiop.PriDec.C25_clean_finish`: all three
* `Hiop.PriDec.C25_terminates`: all three
* `Hiop.PriDec.C25_bounded_work`: all three

## C26 (partial)

* `Hiop.Options.C26_in_range`: all three
* `Hiop.Options.C26_never_aborts`: all three
* `Hiop.Options.C26_consistent`: all three
* `Hiop.Options.C26_unknown_ignored`: all three
* `Hiop.Options.C26_set_numeric`: all three
* `Hiop.Options.C26_set_integer`: all three
* `Hiop.Options.C26_set_string`: all three
* `Hiop.Options.C26_set_tolerance`: all three
* `Hiop.Options.C26_file_blocks`: all three
* `Hiop.Options.C26_file_wins`: all three
* `Hiop.Options.C26_rejected_partial`: all three
* `Hiop.Options.C26_rejected_false`: all three
* `Hiop.Options.C26_nan_false`: all three
* `Hiop.Options.C26_hessian_kkt_false`: all three
* `Hiop.Options.C26_pridec`: all three
* `Hiop.Options.C26_pridec_default_false`: all three

## C27 (partial)

* `Hiop.Sparse.C27_timesVec`: all three
* `Hiop.Sparse.C27_transTimesVec`: all three
* `Hiop.Sparse.C27_symTimesVec`: all three
* `Hiop.Sparse.C27_timesMatTrans`: all three
* `Hiop.Sparse.C27_addMDinvMt`: all three
* `Hiop.Sparse.C27_addMDinvNt`: all three
* `Hiop.Sparse.C27_addMDinvMt_duplicates_refuted`: all three
* `Hiop.Sparse.C27_timesMatTrans_unsorted_refuted`: all three
* `Hiop.Sparse.C27_transAddUpper`: all three
* `Hiop.Sparse.C27_symAddUpper`: all three
* `Hiop.Sparse.C27_copyToDense`: propext, Quot.sound
* `Hiop.Sparse.C27_rowMaxAbs`: propext, Quot.sound
* `Hiop.Sparse.C27_rowMaxAbs_dense`: all three
* `Hiop.Sparse.C27_rowMaxAbs_duplicates_refuted`: all three
* `Hiop.Sparse.C27_scaleRow`: propext, Quot.sound
* `Hiop.Sparse.C27_addSubDiag_partial`: all three
* `Hiop.Sparse.C27_addSubDiag_refuted`: all three
* `Hiop.Sparse.C27_extractDiagonal`: propext, Quot.sound
* `Hiop.Sparse.C27_extractDiagonal_duplicates_refuted`: all three
* `Hiop.Sparse.C27_isDiagonal`: all three
* `Hiop.Sparse.C27_numOffDiag`: propext, Quot.sound
* `Hiop.Sparse.C27_copyRowsFrom`: all three
* `Hiop.Sparse.C27_copyRowsBlockFrom`: all three
* `Hiop.Sparse.C27_copyRowsBlock_unsorted_refuted`: propext, Quot.sound
* `Hiop.Sparse.C27_copySubDiagonal`: all three
* `Hiop.Sparse.C27_setSubDiagonal`: all three
* `Hiop.Sparse.C27_copyDiagToSubblock`: all three
* `Hiop.Sparse.C27_copySubmatrix`: all three
* `Hiop.Sparse.C27_setJacFR`: all three

## C28 (partial)

* `Hiop.Csr.C28_from_triplets`: all three
* `Hiop.Csr.C28_transpose_triplets`: all three
* `Hiop.Csr.C28_transpose`: all three
* `Hiop.Csr.C28_product`: all three
* `Hiop.Csr.C28_sum`: all three
* `Hiop.Csr.C28_scale`: all three
* `Hiop.Csr.C28_form_diag`: all three
* `Hiop.Csr.C28_copy`: all three
* `Hiop.Csr.C28_order_check`: propext, Quot.sound
* `Hiop.Csr.C28_diagonal_partial`: all three
* `Hiop.Csr.C28_diagonal_false`: all three
* `Hiop.Csr.C28_empty_false`: all three
* `Hiop.Csr.C28_empty_transpose_false`: propext, Quot.sound
* `Hiop.Csr.C28_transpose_twice_false`: all three
* `Hiop.Csr.C28_zero_dim_false`: propext, Quot.sound

## C29 (proved)

* `Hiop.QN.C29_memory`: all three
* `Hiop.QN.C29_curvature`: all three
* `Hiop.QN.C29_sigma`: all three
* `Hiop.QN.C29_total`: all three

## C30 (proved)

* `Hiop.PriDec.C30_value`: all three
* `Hiop.PriDec.C30_grad_adds`: all three
* `Hiop.PriDec.C30_taylor`: all three
* `Hiop.PriDec.C30_derivative`: all three
* `Hiop.PriDec.C30_hessian`: all three
* `Hiop.PriDec.C30_value_at_x0`: all three
* `Hiop.PriDec.C30_grad_at_x0`: all three
* `Hiop.PriDec.C30_grad_entries`: all three
* `Hiop.PriDec.C30_convex`: all three

## C31 (proved)

* `Hiop.Nlp.C31_protocol`: all three
* `Hiop.Nlp.C31_answers_in_order`: propext, Quot.sound
* `Hiop.Nlp.C31_transient_failure_switches_mode`: all three

## C32 (proved)

* `Hiop.Iterate.C32_positivity_invariant`: all three
* `Hiop.Iterate.C32_steps_defined`: all three
* `Hiop.Iterate.C32_start_establishes`: all three
* `Hiop.Iterate.C32_slacks_match_bounds`: all three
* `Hiop.Iterate.C32_start_succeeds`: all three
* `Hiop.Iterate.C32_start_fixed_variable_nan`: all three

## C33 (partial)

* `Hiop.Filter.C33_infeasibility_cap_partial`: all three
* `Hiop.Filter.C33_cap_violated_in_first_barrier_problem`: all three

## C34 (partial)

* `Hiop.Mpi.C34_dot`: all three
* `Hiop.Mpi.C34_onenorm`: all three
* `Hiop.Mpi.C34_twonorm`: all three
* `Hiop.Mpi.C34_infnorm`: all three
* `Hiop.Mpi.C34_min_sel`: all three
* `Hiop.Mpi.C34_min`: all three
* `Hiop.Mpi.C34_all_positive`: all three
* `Hiop.Mpi.C34_all_positive_sel`: all three
* `Hiop.Mpi.C34_matches_pattern`: all three
* `Hiop.Mpi.C34_is_zero`: all three
* `Hiop.Mpi.C34_num_less`: all three
* `Hiop.Mpi.C34_num_abs_less`: all three
* `Hiop.Mpi.C34_is_equal`: all three
* `Hiop.Mpi.C34_is_equal_hang`: all three
* `Hiop.Mpi.C34_elementwise`: propext, Quot.sound
* `Hiop.Mpi.C34_times_vec`: all three
* `Hiop.Mpi.C34_trans_times_vec`: all three
* `Hiop.Mpi.C34_times_mat_trans`: all three
* `Hiop.Mpi.C34_row_max_abs`: all three
* `Hiop.Mpi.C34_max_abs`: all three
* `Hiop.Mpi.C34_bound_counts`: all three
* `Hiop.Mpi.C34_reduced_offsets`: all three
* `Hiop.Mpi.C34_dual_norms`: all three
* `Hiop.Mpi.C34_step_lengths`: all three
* `Hiop.Mpi.C34_log_barrier`: all three
* `Hiop.Mpi.C34_damping`: all three
* `Hiop.Mpi.C34_residual`: all three
* `Hiop.Mpi.C34_residual_total`: all three
* `Hiop.Mpi.C34_qn_matrix`: all three
* `Hiop.Mpi.C34_qn_solve`: all three
* `Hiop.Mpi.C34_qn_product`: all three

## C35 (proved)

* `Hiop.Duals.C35_dense`: all three
* `Hiop.Duals.C35_mds`: all three
* `Hiop.Duals.C35_sparse`: all three
* `Hiop.Duals.C35_initial_dense`: all three
* `Hiop.Duals.C35_initial_mds`: all three
* `Hiop.Duals.C35_initial_sparse`: all three
* `Hiop.Duals.C35_go`: all three
* `Hiop.Duals.C35_unique`: all three
* `Hiop.Duals.C35_definite`: all three
* `Hiop.Duals.C35_residual`: all three

## C36 (partial)

* `Hiop.Nlp.C36_scaled_bounds_partial`: all three
* `Hiop.Nlp.C36_reset_drops_scaling`: propext, Quot.sound
* `Hiop.Nlp.C36_scaled_bounds_false`: all three

## C37 (partial)

* `Hiop.Nlp.C37_unscaled_partial`: all three
* `Hiop.Nlp.C37_callback_scaled_exact`: all three
* `Hiop.Nlp.C37_callback_unit_objective`: all three
* `Hiop.Nlp.C37_callback_scaled_false`: all three
* `Hiop.Nlp.C37_getter_ignores_multipliers`: propext, Quot.sound
* `Hiop.Nlp.C37_getter_scaled_false`: all three

## C38 (partial)

* `Hiop.Nlp.C38_sparse_own_order_partial`: all three
* `Hiop.Nlp.C38_sparse_documented_false`: all three
* `Hiop.Nlp.C38_mds_documented_partial`: all three
* `Hiop.Nlp.C38_mds_scaled_false`: all three

## C39 (proved)

* `Hiop.Iterate.C39_step`: all three
* `Hiop.Iterate.C39_bounds_only_widen`: all three

## C40 (partial)

* `Hiop.Kkt.C40_full_operator`: all three
* `Hiop.Kkt.C40_error_vectors`: all three
* `Hiop.Kkt.C40_transpose_refuted`: all three

## C41 (partial)

* `Hiop.Kkt.C41_refinement_has_no_effect`: all three
* `Hiop.Kkt.C41_refined_residual_refuted`: all three

## C42 (partial)

* `Hiop.Krylov.C42_pcg_sound`: all three
* `Hiop.Krylov.C42_bicg_sound`: all three
* `Hiop.Krylov.C42_pcg_monotone`: all three
* `Hiop.Krylov.C42_bicg_monotone_partial`: all three
* `Hiop.Krylov.C42_bicg_giveup_overwrites`: all three
* `Hiop.Krylov.C42_failed_iteration_count`: all three
* `Hiop.Krylov.C42_into_first_partial`: propext, Quot.sound
* `Hiop.Krylov.C42_into_other_object`: all three
* `Hiop.Krylov.C42_ir_reports_success_refuted`: all three

## C43 (proved)

* `Hiop.Kkt.C43_curvature`: all three
* `Hiop.Kkt.C43_test`: all three
* `Hiop.Resid.C43_directional_derivative`: all three
* `Hiop.Resid.C43_descent`: all three
* `Hiop.Resid.C43_strict_descent`: all three

## C44 (partial)

* `Hiop.QN.C44_positive_definite`: all three
* `Hiop.QN.C44_secant`: all three
* `Hiop.QN.C44_solve`: all three
* `Hiop.QN.C44_solve_total`: all three
* `Hiop.QN.C44_inverse_product`: all three
* `Hiop.QN.C44_product_partial`: all three
* `Hiop.QN.C44_product_false`: all three
* `Hiop.QN.C44_kkt`: all three

## C45 (partial)

* `Hiop.PriDec.C45_stops`: all three
* `Hiop.PriDec.C45_alpha`: all three
* `Hiop.PriDec.C45_tangent_partial`: all three
* `Hiop.PriDec.C45_tangent_false`: all three
* `Hiop.PriDec.C45_base`: all three
* `Hiop.PriDec.C45_ratio`: all three
* `Hiop.PriDec.C45_model_lower_bound`: all three
* `Hiop.PriDec.C45_convg_partial`: all three
* `Hiop.PriDec.C45_num_iterations_false`: all three
* `Hiop.PriDec.C45_success_without_convergence`: all three

## C46 (partial)

* `Hiop.Csr.C46_condensed_matrix`: all three
* `Hiop.Csr.C46_ma57`: all three
* `Hiop.Csr.C46_directions`: all three
* `Hiop.Csr.C46_empty_jacobian_false`: propext, Quot.sound

## C47 (partial)

* `Hiop.Checkpoint.C47_save`: all three
* `Hiop.Checkpoint.C47_save_file`: all three
* `Hiop.Checkpoint.C47_load_exact`: all three
* `Hiop.Checkpoint.C47_rejects`: all three
* `Hiop.Checkpoint.C47_roundtrip`: all three
* `Hiop.Checkpoint.C47_resave_partial`: all three
* `Hiop.Checkpoint.C47_room_partial`: all three
* `Hiop.Checkpoint.C47_start`: propext, Quot.sound
* `Hiop.Checkpoint.C47_restart`: all three
* `Hiop.Checkpoint.C47_file_name`: all three
* `Hiop.Checkpoint.C47_file_names_distinct`: all three
* `Hiop.Checkpoint.C47_when`: all three
* `Hiop.Checkpoint.C47_resave_false`: all three
* `Hiop.Checkpoint.C47_room_false`: all three
* `Hiop.Checkpoint.C47_early_false`: all three
* `Hiop.Checkpoint.C47_fallback_false`: all three
* `Hiop.Checkpoint.C47_ranks_false`: all three

## C48 (partial)

* `Hiop.Fr.C48_layout`: all three
* `Hiop.Fr.C48_bounds`: all three
* `Hiop.Fr.C48_objective`: all three
* `Hiop.Fr.C48_gradient`: all three
* `Hiop.Fr.C48_constraints`: all three
* `Hiop.Fr.C48_jacobian`: all three
* `Hiop.Fr.C48_jacobian_mds`: all three
* `Hiop.Fr.C48_jacobian_dense`: all three
* `Hiop.Fr.C48_setHessFR`: all three
* `Hiop.Fr.C48_setHessFR_repeated_false`: all three
* `Hiop.Fr.C48_hessian`: all three
* `Hiop.Fr.C48_hessian_mds`: all three
* `Hiop.Fr.C48_hessian_factor_false`: all three
* `Hiop.Fr.C48_params`: all three
* `Hiop.Fr.C48_warm_start`: all three
* `Hiop.Fr.C48_penalty`: all three
* `Hiop.Fr.C48_force_partial`: all three
* `Hiop.Fr.C48_force_false`: all three
* `Hiop.Fr.C48_stop_partial`: all three
* `Hiop.Fr.C48_obj_base`: all three
* `Hiop.Fr.C48_stop_false`: all three
* `Hiop.Fr.C48_failure_false`: all three
* `Hiop.Fr.C48_outcome`: propext

## C49 (partial)

* `Hiop.Evals.C49_new_x_partial`: propext, Quot.sound
* `Hiop.Evals.C49_caching_user`: propext
* `Hiop.Evals.C49_no_direction_false`: propext, Quot.sound
* `Hiop.Evals.C49_restoration_false`: propext
* `Hiop.Evals.C49_restoration_calls`: propext, Quot.sound

## C50 (partial)

* `Hiop.Evals.C50_start`: propext, Quot.sound
* `Hiop.Evals.C50_accepted`: propext, Quot.sound
* `Hiop.Evals.C50_values_partial`: propext, Quot.sound
* `Hiop.Evals.C50_soft_restoration`: propext
* `Hiop.Evals.C50_robust_restoration`: propext
* `Hiop.Evals.C50_restoration_false`: propext
* `Hiop.Evals.C50_failure_false`: none
* `Hiop.Evals.C50_success_means_all_succeeded`: propext
* `Hiop.Evals.C50_trial_success_means_all_succeeded`: propext

## C51 (partial)

* `Hiop.Lin.C51_sym`: all three
* `Hiop.Lin.C51_pardiso_partial`: all three
* `Hiop.Lin.C51_format`: all three
* `Hiop.Lin.C51_format_assembled`: all three
* `Hiop.Lin.C51_xycyd`: all three
* `Hiop.Lin.C51_xdycyd`: all three
* `Hiop.Lin.C51_pardiso_upper_false`: all three
* `Hiop.Lin.C51_nonsym_first`: all three
* `Hiop.Lin.C51_nonsym_refresh_partial`: all three
* `Hiop.Lin.C51_nonsym_refresh_false`: all three

## C52 (proved)

* `Hiop.Lin.C52_inertia`: all three
* `Hiop.Lin.C52_answers`: all three
* `Hiop.Lin.C52_zero_pivot`: all three
* `Hiop.Lin.C52_small_false`: all three

## C53 (partial)

* `Hiop.Kkt.C53_mds_count_partial`: all three
* `Hiop.Kkt.C53_mds_accepted_partial`: all three
* `Hiop.Kkt.C53_mds_threshold_false`: all three
* `Hiop.Kkt.C53_curvature`: all three
* `Hiop.Kkt.C53_curvature_regularized`: all three
* `Hiop.Kkt.C53_same_inertia`: all three
* `Hiop.Kkt.C53_descent`: all three
* `Hiop.Kkt.mds_inertia`: all three

## C54 (proved)

* `Hiop.Kkt.C54_monotone`: all three
* `Hiop.Kkt.C54_exists`: all three
* `Hiop.Kkt.C54_mds`: all three
* `Hiop.Kkt.C54_dependent`: all three
* `Hiop.Kkt.C54_convex`: all three

## C55 (partial)

* `Hiop.Compound.C55_setToConstant`: all three
* `Hiop.Compound.C55_copyFrom`: all three
* `Hiop.Compound.C55_newCopy`: all three
* `Hiop.Compound.C55_setToConstantSel`: all three
* `Hiop.Compound.C55_copyFromSel`: all three
* `Hiop.Compound.C55_componentMult`: all three
* `Hiop.Compound.C55_componentDiv`: all three
* `Hiop.Compound.C55_componentDivSel`: all three
* `Hiop.Compound.C55_componentMinC`: all three
* `Hiop.Compound.C55_componentMin`: all three
* `Hiop.Compound.C55_componentMaxC`: all three
* `Hiop.Compound.C55_componentMax`: all three
* `Hiop.Compound.C55_componentAbs`: all three
* `Hiop.Compound.C55_componentSgn`: all three
* `Hiop.Compound.C55_scale`: all three
* `Hiop.Compound.C55_axpy`: all three
* `Hiop.Compound.C55_axpySel`: all three
* `Hiop.Compound.C55_axzpy`: all three
* `Hiop.Compound.C55_axdzpySel`: all three
* `Hiop.Compound.C55_axdzpy`: all three
* `Hiop.Compound.C55_addConstant`: all three
* `Hiop.Compound.C55_addConstantSel`: all three
* `Hiop.Compound.C55_negate`: all three
* `Hiop.Compound.C55_addLinearDampingTerm`: all three
* `Hiop.Compound.C55_selectPattern`: all three
* `Hiop.Compound.C55_adjustDualsPlh`: all three
* `Hiop.Compound.C55_dot`: all three
* `Hiop.Compound.C55_onenorm`: all three
* `Hiop.Compound.C55_sumLocal`: all three
* `Hiop.Compound.C55_infnorm`: all three
* `Hiop.Compound.C55_minAll`: all three
* `Hiop.Compound.C55_minSel`: all three
* `Hiop.Compound.C55_linearDampingTermLocal`: all three
* `Hiop.Compound.C55_fractionToBdrySel`: all three
* `Hiop.Compound.C55_fractionToBdry`: all three
* `Hiop.Compound.C55_allPositive`: all three
* `Hiop.Compound.C55_allPositiveSel`: all three
* `Hiop.Compound.C55_matchesPattern`: all three
* `Hiop.Compound.C55_isZero`: all three
* `Hiop.Compound.C55_numLessThan`: all three
* `Hiop.Compound.C55_numAbsLessThan`: all three
* `Hiop.Compound.C55_logBarrierLocal`: all three
* `Hiop.Compound.C55_twonorm`: all three
* `Hiop.Compound.C55_ofIterate_whole`: all three
* `Hiop.Compound.C55_ofResid_whole`: all three
* `Hiop.Compound.C55_copyFromResid`: all three
* `Hiop.Compound.C55_copyFromIterate`: all three
* `Hiop.Compound.C55_ofIterate_injective`: all three
* `Hiop.Compound.C55_pairing`: all three
* `Hiop.Compound.C55_addLogBarrierGrad_false`: all three
* `Hiop.Compound.C55_addLogBarrierGrad_partial`: all three
* `Hiop.Compound.C55_addVector_false`: all three
* `Hiop.Compound.C55_addVector_ignored`: propext
* `Hiop.Compound.C55_addVector`: all three
* `Hiop.Compound.C55_project_false`: all three
* `Hiop.Compound.C55_project_partial`: all three

## C56 (proved)

* `Hiop.Range.C56_copyFromStarting`: all three
* `Hiop.Range.C56_copyFromStartingArr`: all three
* `Hiop.Range.C56_copyToStarting`: all three
* `Hiop.Range.C56_copyToStartingGlobal`: all three
* `Hiop.Range.C56_startingAtCopyFrom`: all three
* `Hiop.Range.C56_startingAtCopyTo_all`: all three
* `Hiop.Range.C56_startingAtCopyTo`: all three
* `Hiop.Range.C56_pack`: all three
* `Hiop.Range.C56_unpack`: all three
* `Hiop.Range.C56_unpack_num`: all three
* `Hiop.Range.C56_unpack_at`: all three
* `Hiop.Range.C56_pack_unpack`: all three
* `Hiop.Range.C56_copyFromIndexes`: all three
* `Hiop.Range.C56_isEqual`: propext, Quot.sound
* `Hiop.Range.C56_roundtrip`: all three
* `Hiop.Range.C56_negative_start_false`: all three

## C57 (partial)

* `Hiop.Sparse.C57_newton_partial`: all three
* `Hiop.Sparse.C57_later_calls_false`: all three
* `Hiop.Sparse.C57_absent_kept`: all three
* `Hiop.Sparse.C57_complete`: all three

## C58 (partial)

* `Hiop.DenseMat.C58_timesVec`: all three
* `Hiop.DenseMat.C58_transTimesVec`: all three
* `Hiop.DenseMat.C58_timesMat_partial`: all three
* `Hiop.DenseMat.C58_timesMat_empty_false`: all three
* `Hiop.DenseMat.C58_transTimesMat_partial`: all three
* `Hiop.DenseMat.C58_transTimesMat_empty_false`: all three
* `Hiop.DenseMat.C58_timesMatTrans`: all three
* `Hiop.DenseMat.C58_addDiagonal`: all three
* `Hiop.DenseMat.C58_addDiagonalConst`: all three
* `Hiop.DenseMat.C58_addSubDiagonal`: all three
* `Hiop.DenseMat.C58_addSubDiagonalFrom_partial`: all three
* `Hiop.DenseMat.C58_addSubDiagonalFrom_false`: propext, Quot.sound
* `Hiop.DenseMat.C58_addSubDiagonalConst`: all three
* `Hiop.DenseMat.C58_addMatrix`: propext, Quot.sound
* `Hiop.DenseMat.C58_transAddTo`: all three
* `Hiop.DenseMat.C58_transAddTo_refused`: propext, Quot.sound
* `Hiop.DenseMat.C58_addUpperTo`: all three
* `Hiop.DenseMat.C58_new`: propext, Quot.sound
* `Hiop.DenseMat.C58_appendRow`: all three
* `Hiop.DenseMat.C58_appendRow_full`: propext, Quot.sound
* `Hiop.DenseMat.C58_copyFrom_partial`: propext, Quot.sound
* `Hiop.DenseMat.C58_copyFrom_empty_false`: propext, Quot.sound
* `Hiop.DenseMat.C58_copyFromBuf`: propext, Quot.sound
* `Hiop.DenseMat.C58_copyTo`: propext, Quot.sound
* `Hiop.DenseMat.C58_newCopy`: propext, Quot.sound
* `Hiop.DenseMat.C58_copyRows`: all three
* `Hiop.DenseMat.C58_copyRowsIdx`: all three
* `Hiop.DenseMat.C58_copyBlock`: all three
* `Hiop.DenseMat.C58_copyFromBlock`: all three
* `Hiop.DenseMat.C58_shiftRows_up`: all three
* `Hiop.DenseMat.C58_shiftRows_down`: all three
* `Hiop.DenseMat.C58_shiftRows_other`: propext, Quot.sound
* `Hiop.DenseMat.C58_replaceRow`: all three
* `Hiop.DenseMat.C58_getRow`: all three
* `Hiop.DenseMat.C58_setToConstant`: all three
* `Hiop.DenseMat.C58_setHessFR`: all three
* `Hiop.DenseMat.C58_scaleRow`: all three
* `Hiop.DenseMat.C58_maxAbs`: all three
* `Hiop.DenseMat.C58_rowMaxAbs`: all three
* `Hiop.DenseMat.C58_symmetrize`: all three
* `Hiop.DenseMat.C58_upperWithLower`: all three
* `Hiop.DenseMat.C58_lowerWithUpper`: all three

## C59 (partial)

* `Hiop.Csr.C59_matrix`: all three
* `Hiop.Csr.C59_newton_partial`: all three
* `Hiop.Csr.C59_any_inertia_accepted`: propext, Quot.sound
* `Hiop.Csr.C59_first_jacobian_false`: all three
* `Hiop.Csr.C59_dual_update_false`: all three
* `Hiop.Csr.C59_inertia_false`: all three
* `Hiop.Csr.C59_empty_false`: all three
* `Hiop.Perturb.C59_primal_first_kind`: all three
* `Hiop.Perturb.C59_dual_first_kind_false`: all three

## C60 (partial)

* `Hiop.Mds.C60_timesVec`: all three
* `Hiop.Mds.C60_transTimesVec`: all three
* `Hiop.Mds.C60_times_refused`: all three
* `Hiop.Mds.C60_timesMatTrans_partial`: all three
* `Hiop.Mds.C60_timesMatTrans_alpha_false`: all three
* `Hiop.Mds.C60_transAddTo`: all three
* `Hiop.Mds.C60_rowMaxAbs`: all three
* `Hiop.Mds.C60_scaleRow`: all three
* `Hiop.Mds.C60_setToConstant`: all three
* `Hiop.Mds.C60_setToZero`: all three
* `Hiop.Mds.C60_newCopy`: propext, Quot.sound
* `Hiop.Mds.C60_copyRowsFrom`: all three
* `Hiop.Mds.C60_setJacFR`: all three
* `Hiop.Mds.C60_maxAbs`: all three
* `Hiop.Mds.C60_addMatrix_copyFrom_false`: propext, Quot.sound
* `Hiop.Mds.C60_symCopyRowsFrom_false`: propext, Quot.sound
* `Hiop.Mds.C60_symTimesVec`: all three
* `Hiop.Mds.C60_symAddUpper`: all three
* `Hiop.Mds.C60_sym_rows_false`: propext, Quot.sound

## C61 (partial)

* `Hiop.Kron.C61_sort_sum`: all three
* `Hiop.Kron.C61_new_slice`: all three
* `Hiop.Kron.C61_new_slice_rejects`: propext, Quot.sound
* `Hiop.Kron.C61_slice_sym_to_sym`: all three
* `Hiop.Kron.C61_slice_from_sym_partial`: all three
* `Hiop.Kron.C61_sparse_times_vec`: all three
* `Hiop.Kron.C61_sparse_trans_times_mat`: all three
* `Hiop.Kron.C61_add_sparse`: propext, Quot.sound
* `Hiop.Kron.C61_add_sparse_upper`: all three
* `Hiop.Kron.C61_dense_times_vec_partial`: all three
* `Hiop.Kron.C61_solve`: all three
* `Hiop.Kron.C61_kron`: all three
* `Hiop.Kron.C61_factor_fails`: all three
* `Hiop.Kron.C61_second_go_false`: all three
* `Hiop.Kron.C61_slice_unsorted_false`: all three
* `Hiop.Kron.C61_slice_duplicates_false`: all three
* `Hiop.Kron.C61_slice_from_sym_false`: all three
* `Hiop.Kron.C61_dense_times_vec_false`: all three
* `Hiop.Kron.C61_apply_empty_false`: all three
* `Hiop.Kron.C61_unsymmetric_false`: all three
* `Hiop.Kron.C61_solve_failure_false`: all three
* `Hiop.Kron.C61_singular_false`: all three

## C62 (partial)

* `Hiop.Raja.C62_timesVec`: all three
* `Hiop.Raja.C62_transTimesVec`: all three
* `Hiop.Raja.C62_symTimesVec`: all three
* `Hiop.Raja.C62_timesMatTrans`: all three
* `Hiop.Raja.C62_addMDinvMt`: all three
* `Hiop.Raja.C62_addMDinvNt`: all three
* `Hiop.Raja.C62_copyToDense`: all three
* `Hiop.Raja.C62_transAdd_partial`: all three
* `Hiop.Raja.C62_symAdd_partial`: all three
* `Hiop.Raja.C62_symAdd_abort`: all three
* `Hiop.Raja.C62_addSubDiag_partial`: all three
* `Hiop.Raja.C62_symAdd_refuted`: all three
* `Hiop.Raja.C62_transAdd_refuted`: all three
* `Hiop.Raja.C62_addSubDiag_refuted`: all three
* `Hiop.Raja.C62_rowMaxAbs`: all three
* `Hiop.Raja.C62_scaleRow`: all three
* `Hiop.Raja.C62_setToConstant`: all three
* `Hiop.Raja.C62_maxAbs`: all three
* `Hiop.Raja.C62_isFinite`: propext, Quot.sound
* `Hiop.Raja.C62_isDiagonal`: propext, Quot.sound
* `Hiop.Raja.C62_numOffDiag`: propext, Quot.sound
* `Hiop.Raja.C62_copySubDiagonalFrom`: all three
* `Hiop.Raja.C62_setSubDiagonalTo`: all three
* `Hiop.Raja.C62_copyDiagToSubblock`: all three
* `Hiop.Raja.C62_copySubmatrixFrom_partial`: all three
* `Hiop.Raja.C62_copySubmatrix_offdiag_refuted`: all three
* `Hiop.Raja.C62_copySubmatrix_offdiag_room_refuted`: propext, Quot.sound
* `Hiop.Raja.C62_copySubmatrix_trans_refuted`: all three
* `Hiop.Raja.C62_copyDiagToSubblockSel`: all three
* `Hiop.Raja.C62_colPattern_partial`: all three
* `Hiop.Raja.C62_rowPattern_partial`: all three
* `Hiop.Raja.C62_colPattern_refuted`: all three
* `Hiop.Raja.C62_rowPattern_refuted`: all three
* `Hiop.Raja.C62_copyRowsFrom_first`: all three
* `Hiop.Raja.C62_copyRowsFrom_again`: all three
* `Hiop.Raja.C62_copyRowsBlock_first`: all three
* `Hiop.Raja.C62_copyRowsBlock_create`: all three
* `Hiop.Raja.C62_copyRowsBlock_again_partial`: all three
* `Hiop.Raja.C62_copyRowsBlock_refuted`: all three
* `Hiop.Raja.C62_setJacFR`: all three
* `Hiop.Raja.C62_setHessFR_partial`: all three
* `Hiop.Raja.C62_setHessFR_refuted`: all three

## C63 (partial)

* `Hiop.Raja.C63_setToConstant`: all three
* `Hiop.Raja.C63_setToConstantSel`: all three
* `Hiop.Raja.C63_copyFromSel`: all three
* `Hiop.Raja.C63_componentMult`: all three
* `Hiop.Raja.C63_componentDiv`: all three
* `Hiop.Raja.C63_componentDivSel`: all three
* `Hiop.Raja.C63_componentMinC`: all three
* `Hiop.Raja.C63_componentMin`: all three
* `Hiop.Raja.C63_componentMaxC`: all three
* `Hiop.Raja.C63_componentMax`: all three
* `Hiop.Raja.C63_componentAbs`: all three
* `Hiop.Raja.C63_componentSgn`: all three
* `Hiop.Raja.C63_componentSqrt`: all three
* `Hiop.Raja.C63_scale`: all three
* `Hiop.Raja.C63_axpy`: all three
* `Hiop.Raja.C63_axpySel`: all three
* `Hiop.Raja.C63_axzpy`: all three
* `Hiop.Raja.C63_axdzpy`: all three
* `Hiop.Raja.C63_axdzpySel`: all three
* `Hiop.Raja.C63_addConstant`: all three
* `Hiop.Raja.C63_addConstantSel`: all three
* `Hiop.Raja.C63_negate`: all three
* `Hiop.Raja.C63_invert`: all three
* `Hiop.Raja.C63_addLogBarrierGrad`: all three
* `Hiop.Raja.C63_addLinearDampingTerm`: all three
* `Hiop.Raja.C63_selectPattern`: all three
* `Hiop.Raja.C63_adjustDuals`: all three
* `Hiop.Raja.C63_pattern_abort`: all three
* `Hiop.Raja.C63_dot`: all three
* `Hiop.Raja.C63_twonorm`: all three
* `Hiop.Raja.C63_infnorm`: all three
* `Hiop.Raja.C63_onenorm`: all three
* `Hiop.Raja.C63_sum`: all three
* `Hiop.Raja.C63_minSel`: propext, Quot.sound
* `Hiop.Raja.C63_min`: propext, Quot.sound
* `Hiop.Raja.C63_logBarrier`: all three
* `Hiop.Raja.C63_linearDampingTerm`: all three
* `Hiop.Raja.C63_allPositive`: all three
* `Hiop.Raja.C63_fractionToBdrySel`: all three
* `Hiop.Raja.C63_fractionToBdry`: all three
* `Hiop.Raja.C63_matchesPattern`: all three
* `Hiop.Raja.C63_allPositiveSel`: all three
* `Hiop.Raja.C63_isZero`: all three
* `Hiop.Raja.C63_any`: all three
* `Hiop.Raja.C63_isFinite`: all three
* `Hiop.Raja.C63_numLessThan`: all three
* `Hiop.Raja.C63_numAbsLessThan`: all three
* `Hiop.Raja.C63_isEqual_partial`: all three
* `Hiop.Raja.C63_isEqual_refuted`: all three
* `Hiop.Raja.C63_project_partial`: all three
* `Hiop.Raja.C63_project_refuted`: all three
* `Hiop.Raja.C63_copyFromStarting`: all three
* `Hiop.Raja.C63_startingAtCopyFrom`: all three
* `Hiop.Raja.C63_copyToStarting`: all three
* `Hiop.Raja.C63_copyToStartingDest`: all three
* `Hiop.Raja.C63_startingAtCopyTo`: all three
* `Hiop.Raja.C63_unpack_refuted`: all three
* `Hiop.Raja.C63_copyFromStartingAt_partial`: propext, Quot.sound
* `Hiop.Raja.C63_copyFromStartingAt_refuted`: all three
* `Hiop.Raja.C63_copyFromIndexes`: all three
* `Hiop.Raja.C63_copyFromIndexes_abort`: propext, Quot.sound
* `Hiop.Raja.C63_copyFromTwo`: all three
* `Hiop.Raja.C63_copyToTwo`: all three
* `Hiop.Raja.C63_pack_partial`: all three
* `Hiop.Raja.C63_pack_abort`: all three
* `Hiop.Raja.C63_pack_refuted`: all three
* `Hiop.Raja.C63_axpyIdx_partial`: all three
* `Hiop.Raja.C63_axpyIdx_short_refuted`: propext, Quot.sound
* `Hiop.Raja.C63_axpyIdx_repeated_refuted`: all three

## C64 (partial)

* `Hiop.Raja.Dense.C64_timesVec`: all three
* `Hiop.Raja.Dense.C64_transTimesVec`: all three
* `Hiop.Raja.Dense.C64_timesMat`: all three
* `Hiop.Raja.Dense.C64_timesMat_mpi_partial`: all three
* `Hiop.Raja.Dense.C64_timesMat_empty_refuted`: all three
* `Hiop.Raja.Dense.C64_transTimesMat`: all three
* `Hiop.Raja.Dense.C64_timesMatTrans`: all three
* `Hiop.Raja.Dense.C64_addDiagonal`: all three
* `Hiop.Raja.Dense.C64_addDiagonalConst`: all three
* `Hiop.Raja.Dense.C64_addSubDiagonal`: all three
* `Hiop.Raja.Dense.C64_addSubDiagonalFrom_partial`: all three
* `Hiop.Raja.Dense.C64_addSubDiagonalFrom_refuted`: propext, Quot.sound
* `Hiop.Raja.Dense.C64_addSubDiagonalConst`: all three
* `Hiop.Raja.Dense.C64_addMatrix`: all three
* `Hiop.Raja.Dense.C64_setToConstant`: all three
* `Hiop.Raja.Dense.C64_addTo`: all three
* `Hiop.Raja.Dense.C64_transAddTo`: all three
* `Hiop.Raja.Dense.C64_addUpperTo`: all three
* `Hiop.Raja.Dense.C64_addUpperTo_overrun`: propext, Quot.sound
* `Hiop.Raja.Dense.C64_appendRow`: all three
* `Hiop.Raja.Dense.C64_appendRow_full`: propext, Quot.sound
* `Hiop.Raja.Dense.C64_copyFrom_partial`: propext, Quot.sound
* `Hiop.Raja.Dense.C64_copyFrom_refuted`: propext, Quot.sound
* `Hiop.Raja.Dense.C64_copyFromBuf`: propext, Quot.sound
* `Hiop.Raja.Dense.C64_copyTo_partial`: propext, Quot.sound
* `Hiop.Raja.Dense.C64_copyTo_refuted`: propext, Quot.sound
* `Hiop.Raja.Dense.C64_newCopy`: propext, Quot.sound
* `Hiop.Raja.Dense.C64_copyRows`: all three
* `Hiop.Raja.Dense.C64_copyRowsIdx`: all three
* `Hiop.Raja.Dense.C64_copyBlock`: all three
* `Hiop.Raja.Dense.C64_copyFromBlock`: all three
* `Hiop.Raja.Dense.C64_shiftRows`: propext, Quot.sound
* `Hiop.Raja.Dense.C64_replaceRow`: all three
* `Hiop.Raja.Dense.C64_getRow`: all three
* `Hiop.Raja.Dense.C64_setHessFR_partial`: all three
* `Hiop.Raja.Dense.C64_maxAbs`: all three
* `Hiop.Raja.Dense.C64_rowMaxAbs`: all three
* `Hiop.Raja.Dense.C64_scaleRow_partial`: all three
* `Hiop.Raja.Dense.C64_scaleRow_refuted`: all three
* `Hiop.Raja.Dense.C64_upperWithLower`: all three
* `Hiop.Raja.Dense.C64_lowerWithUpper`: all three
* `Hiop.Raja.Dense.C64_symmetrize`: all three

## C65 (partial)

* `Hiop.Select.C65_solver_xycyd`: all three
* `Hiop.Select.C65_solver_xdycyd_partial`: all three
* `Hiop.Select.C65_named_missing_false`: all three
* `Hiop.Select.C65_xdycyd_hybrid_auto_false`: all three
* `Hiop.Select.C65_xdycyd_hybrid_pardiso_false`: all three
* `Hiop.Select.C65_full_ignores_option_false`: propext, Quot.sound
* `Hiop.Select.C65_solver_chol`: propext
* `Hiop.Select.C65_normaleqn_named_false`: all three
* `Hiop.Select.C65_inertia_known_partial`: all three
* `Hiop.Select.C65_required_partial`: all three
* `Hiop.Select.C65_required_false`: all three
* `Hiop.Select.C65_ginkgo_inertia_false`: all three
* `Hiop.Select.C65_system`: all three
* `Hiop.Select.C65_parameters`: all three
* `Hiop.Select.C65_stable_sparse_false`: all three
* `Hiop.Select.C65_default_sparse_false`: all three
* `Hiop.Select.C65_stable_xdycyd`: all three
* `Hiop.Select.C65_auto_strumpack_false`: all three
* `Hiop.Select.C65_mds_stays_safe_false`: all three
* `Hiop.Select.C65_mds_solver`: all three
* `Hiop.Select.C65_keeps_solver_partial`: all three

## C66 (partial)

* `Hiop.CApi.C66_transparent_partial`: propext
* `Hiop.CApi.C66_codes_ignored_false`: propext
* `Hiop.CApi.C66_new_x_false`: propext
* `Hiop.CApi.C66_runs`: propext, Quot.sound
* `Hiop.CApi.C66_never_new_x_false`: propext, Quot.sound
* `Hiop.CApi.C66_inner`: propext, Quot.sound
* `Hiop.CApi.C66_results`: none
* `Hiop.CApi.C66_mds_status_false`: propext
* `Hiop.CApi.C66_fortran_status_false`: none
* `Hiop.CApi.C66_fortran_matrices`: propext, Quot.sound
* `Hiop.CApi.C66_fortran_data`: propext
* `Hiop.CApi.C66_fortran_memory_partial`: all three
* `Hiop.CApi.C66_fortran_leak_false`: all three
* `Hiop.CApi.C66_sparse_solver`: all three
* `Hiop.CApi.C66_mds_options`: all three
* `Hiop.CApi.C66_dense_options`: all three
* `Hiop.CApi.C66_fortran_dense_data`: propext
* `Hiop.CApi.C66_fortran_dense_transparent_partial`: propext
* `Hiop.CApi.C66_fortran_dense_new_x_refuted`: propext
* `Hiop.CApi.C66_fortran_dense_jacobian`: propext, Quot.sound
* `Hiop.CApi.C66_fortran_dense_layout_refuted`: all three

## C67 (partial)

* `Hiop.Ipopt.C67_one_call`: all three
* `Hiop.Ipopt.C67_separate_partial`: all three
* `Hiop.Ipopt.C67_rows`: all three
* `Hiop.Ipopt.C67_order_false`: all three
* `Hiop.Ipopt.C67_failure_false`: propext
* `Hiop.Ipopt.C67_failure_partial`: propext, Quot.sound
* `Hiop.Ipopt.C67_dense`: all three
* `Hiop.Ipopt.C67_dense_one_call_false`: propext, Quot.sound

## C68 (partial)

* `Hiop.Wrap.C68_ma57`: all three
* `Hiop.Wrap.C68_ma57_singular`: all three
* `Hiop.Wrap.C68_ma57_hang_false`: all three
* `Hiop.Wrap.C68_ma57_warning_false`: propext, Quot.sound
* `Hiop.Wrap.C68_pardiso_partial`: all three
* `Hiop.Wrap.C68_pardiso_false`: all three
* `Hiop.Wrap.C68_pardiso_general_false`: all three
* `Hiop.Wrap.C68_strumpack_partial`: propext, Quot.sound
* `Hiop.Wrap.C68_strumpack_false`: all three
* `Hiop.Wrap.C68_strumpack_general`: propext
* `Hiop.Wrap.C68_ginkgo_partial`: propext
* `Hiop.Wrap.C68_ginkgo_false`: all three
* `Hiop.Wrap.C68_magma`: propext, Quot.sound
* `Hiop.Wrap.C68_magma_nopiv_partial`: propext, Quot.sound
* `Hiop.Wrap.C68_magma_nopiv_false`: propext, Quot.sound
* `Hiop.Wrap.C68_resolve_glu_partial`: propext
* `Hiop.Wrap.C68_resolve_rf_partial`: all three
* `Hiop.Wrap.C68_resolve_stuck`: all three
* `Hiop.Wrap.C68_resolve_stale_false`: all three
* `Hiop.Wrap.C68_resolve_singular_false`: all three
* `Hiop.Wrap.C68_chol_partial`: propext, Quot.sound
* `Hiop.Wrap.C68_chol_false`: all three
* `Hiop.Wrap.C68_chol_permuted`: all three

## C69 (partial)

* `Hiop.Callback.C69_iterate_partial`: all three
* `Hiop.Callback.C69_solution`: all three
* `Hiop.Callback.C69_objective_agrees`: all three
* `Hiop.Callback.C69_history_partial`: all three
* `Hiop.Callback.C69_iterate_scaled_exact`: all three
* `Hiop.Callback.C69_iterate_scaled_false`: all three
* `Hiop.Callback.C69_duals_scaled_exact`: propext, Quot.sound
* `Hiop.Callback.C69_duals_scaled_false`: all three
* `Hiop.Callback.C69_removed_exact`: all three
* `Hiop.Callback.C69_iterate_removed_false`: all three
* `Hiop.Callback.C69_full_direct`: propext, Quot.sound
* `Hiop.Callback.C69_full_copies_false`: propext, Quot.sound
* `Hiop.Callback.C69_full_copies_defined`: propext, Quot.sound
* `Hiop.Callback.C69_force_partial`: propext, Quot.sound
* `Hiop.Callback.C69_force_refused_false`: propext, Quot.sound

## C70 (partial)

* `Hiop.IneqForm.C70_structure`: all three
* `Hiop.IneqForm.C70_contains`: all three
* `Hiop.IneqForm.C70_violation`: all three
* `Hiop.IneqForm.C70_bounded`: all three
* `Hiop.IneqForm.C70_interior`: all three
* `Hiop.IneqForm.C70_violation_relaxed`: all three
* `Hiop.IneqForm.C70_infinite_false`: all three
* `Hiop.IneqForm.C70_merge`: all three
* `Hiop.IneqForm.C70_nnz`: propext

## C71 (partial)

* `Hiop.Gpu.launchG_eq`: all three
* `Hiop.Gpu.C71_setToConstant`: all three
* `Hiop.Gpu.C71_componentMult`: all three
* `Hiop.Gpu.C71_copyFrom`: all three
* `Hiop.Gpu.C71_setToConstantSel`: all three
* `Hiop.Gpu.C71_componentDiv`: all three
* `Hiop.Gpu.C71_componentDivSel`: all three
* `Hiop.Gpu.C71_componentMinC`: all three
* `Hiop.Gpu.C71_componentMin`: all three
* `Hiop.Gpu.C71_componentMaxC`: all three
* `Hiop.Gpu.C71_componentMax`: all three
* `Hiop.Gpu.C71_componentAbs`: all three
* `Hiop.Gpu.C71_componentSgn`: all three
* `Hiop.Gpu.C71_componentSqrt`: all three
* `Hiop.Gpu.C71_scale`: all three
* `Hiop.Gpu.C71_axpy`: all three
* `Hiop.Gpu.C71_axzpy`: all three
* `Hiop.Gpu.C71_axdzpy`: all three
* `Hiop.Gpu.C71_axdzpySel`: all three
* `Hiop.Gpu.C71_addConstant`: all three
* `Hiop.Gpu.C71_addConstantSel`: all three
* `Hiop.Gpu.C71_negate`: all three
* `Hiop.Gpu.C71_invert`: all three
* `Hiop.Gpu.C71_addLogBarrierGrad`: all three
* `Hiop.Gpu.C71_addLinearDampingTerm`: all three
* `Hiop.Gpu.C71_selectPattern`: all three
* `Hiop.Gpu.C71_adjustDuals`: all three
* `Hiop.Gpu.C71_copyFromSel_exact`: all three
* `Hiop.Gpu.C71_copyFromSel_partial`: all three
* `Hiop.Gpu.C71_copyFromSel_refuted`: all three
* `Hiop.Gpu.C71_axpySel_exact`: all three
* `Hiop.Gpu.C71_axpySel_partial`: all three
* `Hiop.Gpu.C71_axpySel_refuted`: all three
* `Hiop.Gpu.C71_setArrayFrom`: all three
* `Hiop.Gpu.C71_setArrayConst_partial`: all three
* `Hiop.Gpu.C71_setArrayConst_refuted`: propext, Quot.sound
* `Hiop.Gpu.C71_dot`: all three
* `Hiop.Gpu.C71_twonorm`: all three
* `Hiop.Gpu.C71_infnorm`: all three
* `Hiop.Gpu.C71_onenorm`: all three
* `Hiop.Gpu.C71_sum`: all three
* `Hiop.Gpu.C71_linearDampingTerm`: all three
* `Hiop.Gpu.C71_min_partial`: propext, Quot.sound
* `Hiop.Gpu.C71_minSel_partial`: all three
* `Hiop.Gpu.C71_allPositive_partial`: propext, Quot.sound
* `Hiop.Gpu.C71_empty_refuted`: all three
* `Hiop.Gpu.C71_allPositiveSel_exact`: all three
* `Hiop.Gpu.C71_allPositiveSel_partial`: all three
* `Hiop.Gpu.C71_allPositiveSel_refuted`: all three
* `Hiop.Gpu.C71_fractionToBdrySel_partial`: all three
* `Hiop.Gpu.C71_fractionToBdry_partial`: all three
* `Hiop.Gpu.C71_fractionToBdry_refuted`: all three
* `Hiop.Gpu.C71_logBarrier_partial`: all three
* `Hiop.Gpu.C71_logBarrier_refuted`: all three
* `Hiop.Gpu.C71_matchesPattern`: all three
* `Hiop.Gpu.C71_isZero`: propext, Quot.sound
* `Hiop.Gpu.C71_any`: propext, Quot.sound
* `Hiop.Gpu.C71_isFinite`: propext, Quot.sound
* `Hiop.Gpu.C71_numLessThan`: all three
* `Hiop.Gpu.C71_numAbsLessThan`: all three
* `Hiop.Gpu.C71_project_partial`: all three
* `Hiop.Gpu.C71_project_refuted`: all three
* `Hiop.Gpu.C71_copyFromStarting`: propext, Quot.sound
* `Hiop.Gpu.C71_startingAtCopyFrom`: all three
* `Hiop.Gpu.C71_copyToStarting`: all three
* `Hiop.Gpu.C71_copyToStartingDest`: all three
* `Hiop.Gpu.C71_startingAtCopyTo`: all three
* `Hiop.Gpu.C71_unpack_refuted`: all three
* `Hiop.Gpu.C71_copyFromStartingAt_partial`: propext, Quot.sound
* `Hiop.Gpu.C71_copyFromIndexes`: all three
* `Hiop.Gpu.C71_copyFromTwo`: all three
* `Hiop.Gpu.C71_copyToTwo`: all three
* `Hiop.Gpu.C71_pack_partial`: all three
* `Hiop.Gpu.C71_pack_outside`: all three
* `Hiop.Gpu.C71_pack_refuted`: all three
* `Hiop.Gpu.C71_axpyIdx_partial`: all three
* `Hiop.Gpu.C71_axpyIdx_refuted`: all three
* `Hiop.Gpu.C71_linspace`: all three
* `Hiop.Gpu.C71_intSetToConstant_exact`: propext, Quot.sound
* `Hiop.Gpu.C71_intSetToConstant_refuted`: propext, Quot.sound

## C72 (partial)

* `Hiop.Options.C72_file_value_partial`: all three
* `Hiop.Options.C72_order_partial`: all three
* `Hiop.Options.C72_order_refuted`: all three
* `Hiop.Options.C72_tolerance_first`: all three
* `Hiop.Options.C72_tolerance_last`: all three
* `Hiop.Options.C72_line_tokens`: all three
* `Hiop.Options.C72_print_says`: all three
* `Hiop.Options.C72_reload_partial`: all three
* `Hiop.Options.C72_reload_tolerance`: all three
* `Hiop.Options.C72_reload_refuted`: all three
* `Hiop.Options.C72_digits_refuted`: all three
* `Hiop.Options.C72_blank_refuted`: all three
* `Hiop.Options.C72_empty_refuted`: all three
* `Hiop.Options.C72_kkt_refuted`: all three

## C73 (partial)

* `Hiop.Options.C73_second_pass`: all three
* `Hiop.Options.C73_text_early_partial`: all three
* `Hiop.Options.C73_text_partial`: all three
* `Hiop.Options.C73_filtered`: all three
* `Hiop.Options.C73_defined_exact`: all three
* `Hiop.Options.C73_line_partial`: all three
* `Hiop.Options.C73_call_partial`: all three
* `Hiop.Options.C73_line_refuted`: all three
* `Hiop.Options.C73_call_refuted`: all three

## C74 (partial)

* `Hiop.Life.C74_no_use_after_release`: all three
* `Hiop.Life.C74_leak_exact`: all three
* `Hiop.Life.C74_one_run_partial`: all three
* `Hiop.Life.C74_two_runs_refuted`: all three
* `Hiop.Life.C74_switch_refuted`: all three

## C75 (partial)

* `Hiop.Session.C75_first_run`: propext, Quot.sound
* `Hiop.Session.C75_parameters`: all three
* `Hiop.Session.C75_reinitialized`: propext, Quot.sound
* `Hiop.Session.C75_scaling_pointer_partial`: propext, Quot.sound
* `Hiop.Session.C75_rerun_partial`: propext, Quot.sound
* `Hiop.Session.C75_load_sticky`: propext
* `Hiop.Session.C75_moved_bounds_refuted`: all three
* `Hiop.Session.C75_scaled_twice_refuted`: all three
* `Hiop.Session.C75_relaxation_refuted`: all three
* `Hiop.Session.C75_memory_refuted`: all three
* `Hiop.Session.C75_dangling_refuted`: all three
* `Hiop.Session.C75_load_refuted`: all three

## C76 (partial)

* `Hiop.Fgmres.C76_reported_residual`: all three
* `Hiop.Fgmres.C76_never_worse`: all three
* `Hiop.Fgmres.C76_stop`: all three
* `Hiop.Fgmres.C76_minimal`: all three
* `Hiop.Fgmres.C76_iterations_partial`: all three
* `Hiop.Fgmres.C76_solve`: all three
* `Hiop.Fgmres.C76_terminates`: all three
* `Hiop.Fgmres.C76_breakdown`: all three
* `Hiop.Fgmres.C76_one_unknown_refuted`: all three
* `Hiop.Fgmres.C76_schemes_agree`: all three
* `Hiop.Fgmres.C76_arnoldi`: all three
* `Hiop.Fgmres.C76_kernel`: all three
* `Hiop.Fgmres.C76_statistics_refuted`: all three
* `Hiop.Fgmres.C76_guard_refuted`: all three

## C77 (proved)

* `Hiop.Refact.C77_memory`: all three
* `Hiop.Refact.C77_pattern`: all three
* `Hiop.Refact.C77_pivot`: all three
* `Hiop.Refact.C77_implicit_diagonal`: propext

## C78 (partial)

* `Hiop.Refine.C78_inverse`: all three
* `Hiop.Refine.C78_same_direction_partial`: all three
* `Hiop.Refine.C78_direct_off`: all three
* `Hiop.Refine.C78_off_bounds`: all three
* `Hiop.Refine.C78_converged`: all three
* `Hiop.Refine.C78_accuracy`: all three
* `Hiop.Refine.C78_no_worse_partial`: all three
* `Hiop.Refine.C78_exact_xycyd`: all three
* `Hiop.Refine.C78_exact_xdycyd`: all three
* `Hiop.Refine.C78_zero_rhs`: all three
* `Hiop.Refine.C78_solves_partial`: all three
* `Hiop.Refine.C78_long_rhs_zero_direction`: all three
* `Hiop.Refine.C78_failed_solve_refuted`: all three

## C79 (partial)

* `Hiop.CsrGpu.C79_diagonal_partial`: all three
* `Hiop.CsrGpu.C79_diagonal_host_partial`: all three
* `Hiop.CsrGpu.C79_missing_diagonal`: all three
* `Hiop.CsrGpu.C79_dropped`: all three
* `Hiop.CsrGpu.C79_extract_partial`: all three
* `Hiop.CsrGpu.C79_scale_rows`: all three
* `Hiop.CsrGpu.C79_from_triplets_partial`: all three
* `Hiop.CsrGpu.C79_form_diag`: all three
* `Hiop.CsrGpu.C79_order_check`: propext, Quot.sound
* `Hiop.CsrGpu.C79_empty_row_refuted`: all three
* `Hiop.CsrGpu.C79_overflow_refuted`: all three
* `Hiop.CsrGpu.C79_empty_refuted`: propext, Quot.sound
* `Hiop.CsrGpu.C79_unsorted_refuted`: all three
* `Hiop.CsrGpu.C79_hessian_partial`: all three
* `Hiop.CsrGpu.C79_hessian_refuted`: all three

## C80 (partial)

* `Hiop.KryKer.C80_inner_products_partial`: all three
* `Hiop.KryKer.C80_unsynchronised`: all three
* `Hiop.KryKer.C80_inner_products_refuted`: all three
* `Hiop.KryKer.C80_mass_axpy`: all three
* `Hiop.KryKer.C80_row_sums`: all three
* `Hiop.KryKer.C80_matrix_norm`: all three

## C81 (partial)

* `Hiop.Mem.C81_transfer`: all three
* `Hiop.Mem.C81_unsupported`: all three
* `Hiop.Mem.C81_new`: all three
* `Hiop.Mem.C81_mirror`: all three
* `Hiop.Mem.C81_delete`: propext
* `Hiop.Mem.C81_dense`: all three
* `Hiop.Mem.C81_placement_partial`: all three
* `Hiop.Mem.C81_placement_refuted`: all three
* `Hiop.Mem.C81_runs_partial`: all three
* `Hiop.Mem.C81_runs_refuted`: all three
* `Hiop.Mem.C81_served`: all three
* `Hiop.Mem.C81_never_null`: all three
* `Hiop.Mem.C81_refusal_refuted`: all three
* `Hiop.Mem.C81_csr_partial`: all three
* `Hiop.Mem.C81_csr_refuted`: all three
* `Hiop.Mem.C81_raw`: all three

## C82 (partial)

* `Hiop.Stats.C82_timer`: propext, Quot.sound
* `Hiop.Stats.C82_counts`: propext, Quot.sound
* `Hiop.Stats.C82_pattern_calls_refuted`: all three
* `Hiop.Stats.C82_pattern_calls`: all three
* `Hiop.Stats.C82_eval_time`: all three
* `Hiop.Stats.C82_internal_newton`: propext, Quot.sound
* `Hiop.Stats.C82_internal_qn`: propext, Quot.sound
* `Hiop.Stats.C82_internal_refuted`: all three
* `Hiop.Stats.C82_kkt_partial`: propext, Quot.sound
* `Hiop.Stats.C82_kkt_repeated`: propext, Quot.sound
* `Hiop.Stats.C82_kkt_refuted`: all three
* `Hiop.Stats.C82_fact_partial`: propext, Quot.sound
* `Hiop.Stats.C82_fact_repeated`: propext, Quot.sound
* `Hiop.Stats.C82_fact_refuted`: all three
* `Hiop.Stats.C82_spread`: all three
* `Hiop.Stats.C82_spread_refuted`: all three

## C83 (partial)

* `Hiop.FrMpi.C83_partition`: propext, Quot.sound
* `Hiop.FrMpi.C83_partition_one`: all three
* `Hiop.FrMpi.C83_partition_refuted`: propext, Quot.sound
* `Hiop.FrMpi.C83_bounds`: all three
* `Hiop.FrMpi.C83_cons_bounds`: all three
* `Hiop.FrMpi.C83_var_kinds_refuted`: propext, Quot.sound
* `Hiop.FrMpi.C83_cons_kinds_refuted`: propext, Quot.sound
* `Hiop.FrMpi.C83_objective`: all three
* `Hiop.FrMpi.C83_gradient`: all three
* `Hiop.FrMpi.C83_constraints`: all three
* `Hiop.FrMpi.C83_jacobian`: all three
* `Hiop.FrMpi.C83_warm_start`: all three
* `Hiop.FrMpi.C83_force`: all three

## C84 (partial)

* `Hiop.RemMpi.C84_setup`: all three
* `Hiop.RemMpi.C84_distribution`: all three
* `Hiop.RemMpi.C84_expand`: all three
* `Hiop.RemMpi.C84_restrict`: all three
* `Hiop.RemMpi.C84_jacobian`: all three
* `Hiop.RemMpi.C84_points`: all three
* `Hiop.RemMpi.C84_no_distribution_refuted`: propext, Quot.sound
* `Hiop.RemMpi.C84_replicated_counts_refuted`: all three

## C85 (partial)

* `Hiop.IterLog.C85_newton_log_partial`: all three
* `Hiop.IterLog.C85_quasi_newton_log`: all three
* `Hiop.IterLog.C85_letters`: all three
* `Hiop.IterLog.C85_message`: propext
* `Hiop.IterLog.C85_took_unique`: all three
* `Hiop.IterLog.C85_step_error_silent_refuted`: all three
* `Hiop.IterLog.C85_user_error_silent_refuted`: all three
* `Hiop.IterLog.C85_stale_column_refuted`: all three

## C86 (partial)

* `Hiop.IntVec.C86_linspace_host_partial`: all three
* `Hiop.IntVec.C86_linspace_host_refuted`: all three
* `Hiop.IntVec.C86_linspace_raja`: all three
* `Hiop.IntVec.C86_linspace_device_partial`: all three
* `Hiop.IntVec.C86_linspace_device_refuted`: all three
* `Hiop.IntVec.C86_indices`: all three
* `Hiop.IntVec.C86_constant`: all three
* `Hiop.IntVec.C86_copy`: all three
* `Hiop.IntVec.C86_compound`: all three
* `Hiop.IntVec.C86_coupling`: all three

## C87 (proved)

* `Hiop.ProbType.C87_every_evaluation`: propext, Quot.sound
* `Hiop.ProbType.C87_type_irrelevant`: propext, Quot.sound
* `Hiop.ProbType.C87_restoration_type`: none
* `Hiop.ProbType.C87_evaluated_once_refuted`: propext, Quot.sound
* `Hiop.ProbType.C87_linear_test_sound`: propext
* `Hiop.ProbType.C87_quadratic_test_refuted`: all three

## C88 (partial)

* `Hiop.StartPt.C88_primal_dual_partial`: all three
* `Hiop.StartPt.C88_warm_start_partial`: all three
* `Hiop.StartPt.C88_point`: all three
* `Hiop.StartPt.C88_no_point`: all three
* `Hiop.StartPt.C88_projected`: all three
* `Hiop.StartPt.C88_invariant`: all three
* `Hiop.StartPt.C88_invariant_warm`: all three
* `Hiop.StartPt.C88_removed_refuted`: all three
* `Hiop.StartPt.C88_warm_default_refuted`: all three
* `Hiop.StartPt.C88_failed_call_refuted`: all three
* `Hiop.StartPt.C88_scaled_refuted`: all three

## C89 (partial)

* `Hiop.PdSession.C89_every_run`: all three
* `Hiop.PdSession.C89_run_again`: all three
* `Hiop.PdSession.C89_released`: all three
* `Hiop.PdSession.C89_no_iterations_refuted`: all three
* `Hiop.PdSession.C89_bounds_refuted`: all three
* `Hiop.PdSession.C89_is_C45`: all three
* `Hiop.PdSession.C89_basecase_pointer_refuted`: all three

## C90 (partial)

* `Hiop.UserArgs.C90_nothing_removed`: propext, Quot.sound
* `Hiop.UserArgs.C90_dense`: all three
* `Hiop.UserArgs.C90_other_classes_partial`: all three
* `Hiop.UserArgs.C90_jacobian_size_refuted`: all three
* `Hiop.UserArgs.C90_hessian_point_refuted`: all three
* `Hiop.UserArgs.C90_hessian_new_x_refuted`: all three
* `Hiop.UserArgs.C90_mixed_aborts`: all three
* `Hiop.UserArgs.C90_sparse_run_aborts`: all three
* `Hiop.UserArgs.C90_run_partial`: all three

## C91 (partial)

* `Hiop.SoftFr.C91_success_partial`: all three
* `Hiop.SoftFr.C91_failure`: all three
* `Hiop.SoftFr.C91_evaluations`: all three
* `Hiop.SoftFr.C91_course`: all three
* `Hiop.SoftFr.C91_first_accepted`: all three
* `Hiop.SoftFr.C91_filter_refuted`: all three
* `Hiop.SoftFr.C91_user_error_refuted`: all three

## C92 (partial)

* `Hiop.KktFile.C92_file_partial`: all three
* `Hiop.KktFile.C92_symmetric`: all three
* `Hiop.KktFile.C92_reading_unique`: all three
* `Hiop.KktFile.C92_nonzero_refuted`: all three
* `Hiop.KktFile.C92_normal_equation_refuted`: all three
* `Hiop.KktFile.C92_second_solver_refuted`: all three
