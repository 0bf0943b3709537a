{
 "claims": [
  {
   "property": "C01",
   "status": "proved",
   "theorems": [
    "Hiop.Filter.C01_filter_contains_iff",
    "Hiop.Filter.C01_reset_forgets",
    "Hiop.Filter.C01_add_monotone"
   ],
   "note": "Membership characterised for every operation history, independent of the list representation."
  },
  {
   "property": "C02",
   "status": "proved",
   "theorems": [
    "Hiop.Filter.C02_accept_status",
    "Hiop.Filter.C02_rejected_by_filter_flag",
    "Hiop.Filter.C02_accept_progress",
    "Hiop.Filter.C02_no_return_to_filtered_point",
    "Hiop.Filter.C02_augmentation_rule",
    "Hiop.Filter.C02_no_return"
   ],
   "note": "Decision table, progress guarantee and the history-level no-return statement."
  },
  {
   "property": "C03",
   "status": "proved",
   "theorems": [
    "Hiop.Vec.C03_fraction_to_boundary_greatest",
    "Hiop.Vec.C03_fraction_to_boundary_all",
    "Hiop.Iterate.C03_iterate_step_lengths"
   ],
   "note": "Kernels with and without selection pattern, and the eight-block iterate version: the returned step is the greatest admissible one."
  },
  {
   "property": "C04",
   "status": "proved",
   "theorems": [
    "Hiop.Vec.C04_projection_fails_iff",
    "Hiop.Vec.C04_projection_nearest",
    "Hiop.Vec.C04_projection_strictly_inside",
    "Hiop.Vec.C04_narrow_interval_not_inside"
   ],
   "note": "Failure iff, nearest-point characterisation, strict interiority; the excluded narrow-interval case has a witness theorem."
  },
  {
   "property": "C05",
   "status": "proved",
   "theorems": [
    "Hiop.Vec.C05_dual_safeguard",
    "Hiop.Vec.C05_dual_positive"
   ],
   "note": "Interval, unchanged cases, idempotence."
  },
  {
   "property": "C06",
   "status": "proved",
   "theorems": [
    "Hiop.Iterate.C06_small_slack_rule",
    "Hiop.Iterate.C06_small_slack_bounds",
    "Hiop.Iterate.C06_nan_iff",
    "Hiop.Iterate.C06_defined_of_positive_duals",
    "Hiop.Iterate.C06_adjusted_bounds_match",
    "Hiop.Iterate.C06_ieee_zero_dual_nan",
    "Hiop.Iterate.C06_ieee_zero_dual_cap"
   ],
   "note": "The kernel sequence of the code; exact characterisation of when a zero multiplier produces NaN."
  },
  {
   "property": "C07",
   "status": "proved",
   "theorems": [
    "Hiop.Barrier.C07_barrier_value",
    "Hiop.Barrier.C07_directional_derivative",
    "Hiop.Barrier.C07_damping_in_residual"
   ],
   "note": "Exact real arithmetic: the Kahan-compensated accumulation equals the sum and the computed directional derivative is the derivative of the computed barrier objective."
  },
  {
   "property": "C08",
   "status": "proved",
   "theorems": [
    "Hiop.Driver.C08_mu_update",
    "Hiop.Driver.C08_refused_iff",
    "Hiop.Driver.C08_mu_loop",
    "Hiop.Driver.C08_mu_raised_below_floor",
    "Hiop.Driver.C08_elastic_range",
    "Hiop.Driver.C08_elastic_monotone"
   ],
   "note": "All starting values at or above the floor; below the floor the value is raised to it (separate theorem)."
  },
  {
   "property": "C09",
   "status": "proved",
   "theorems": [
    "Hiop.Driver.C09_scaled_error",
    "Hiop.Driver.C09_status_meaning",
    "Hiop.Driver.C09_acceptable_level"
   ],
   "note": "Exact meaning and priority of each status, and the consecutive-iterations reading of the acceptable level over all histories."
  },
  {
   "property": "C10",
   "status": "partial",
   "theorems": [
    "Hiop.Perturb.C10_wrong_inertia_accepted",
    "Hiop.Perturb.C10_wrong_inertia_finite",
    "Hiop.Perturb.C10_reachable_consistent_partial",
    "Hiop.Perturb.C10_initial",
    "Hiop.Perturb.C10_dual_first_consistent",
    "Hiop.Perturb.C10_dual_first_accepted",
    "Hiop.Perturb.C10_dual_first_finite",
    "Hiop.Perturb.C10_degenerate_hessian_ignored",
    "Hiop.Perturb.C10_degenerate_mismatch",
    "Hiop.Perturb.C10_degenerate_mismatch_reachable",
    "Hiop.Perturb.C10_assertion_reachable"
   ],
   "note": "Proved for all histories of the dual-first class; for the primal-first class except after both blocks are declared degenerate, where the code violates the property (violation theorems)."
  },
  {
   "property": "C11",
   "status": "proved",
   "theorems": [
    "Hiop.Perturb.C11_inertia_accepts_iff",
    "Hiop.Perturb.C11_inertia_rejects",
    "Hiop.Perturb.C11_free_accepts_iff",
    "Hiop.Perturb.C11_free_rejects",
    "Hiop.Perturb.C11_factorize",
    "Hiop.Perturb.C11_free_reports_failed_factorization"
   ],
   "note": "Acceptors as iff over all calculators, the factorization loop, and a violation in the inertia-free refactorization routine."
  },
  {
   "property": "C12",
   "status": "partial",
   "theorems": [
    "Hiop.Nlp.C12_bounds_classified",
    "Hiop.Nlp.C12_counts_after_removal",
    "Hiop.Nlp.C12_ineq_classified",
    "Hiop.Nlp.C12_counts_after_removal_false"
   ],
   "note": "Classification and counts proved for variables and inequalities for all inputs; after fixed-variable removal the counters are right when the removed variables have a finite lower bound, and wrong otherwise (witness theorem)."
  },
  {
   "property": "C13",
   "status": "proved",
   "theorems": [
    "Hiop.Nlp.C13_split",
    "Hiop.Nlp.C13_split_merge",
    "Hiop.Nlp.C13_merge_split"
   ],
   "note": "Maps increasing, disjoint, covering; both round trips."
  },
  {
   "property": "C14",
   "status": "partial",
   "theorems": [
    "Hiop.Nlp.C14_setup_iff",
    "Hiop.Nlp.C14_setup_succeeds",
    "Hiop.Nlp.C14_setup_abort_example",
    "Hiop.Nlp.C14_expand",
    "Hiop.Nlp.C14_restrict",
    "Hiop.Nlp.C14_expand_restrict",
    "Hiop.Nlp.C14_restrict_expand",
    "Hiop.Nlp.C14_jacobian_columns",
    "Hiop.Nlp.C14_jacobian_expand",
    "Hiop.Nlp.C14_history",
    "Hiop.Nlp.C14_returned_point_partial",
    "Hiop.Nlp.C14_returned_point_none_removed",
    "Hiop.Nlp.C14_returned_point_false"
   ],
   "note": "Everything about points passed to callbacks, gradients and Jacobians is proved for all inputs and all truthful call histories. Missing because the code violates it: the point returned by getSolution (witness theorem), and set-up aborts for variables whose bounds are both beyond 1e20 and close."
  },
  {
   "property": "C15",
   "status": "partial",
   "theorems": [
    "Hiop.Nlp.C15_derivatives_consistent",
    "Hiop.Nlp.C15_values_and_points",
    "Hiop.Nlp.C15_reported_objective",
    "Hiop.Nlp.C15_no_instruction_exits",
    "Hiop.Nlp.C15_reported_objective_second_run",
    "Hiop.Nlp.C15_dense_one_call_jacobian_false"
   ],
   "note": "Values, points, derivatives proved for all chains in two-call mode; violated for the reported objective of a second run and the dense one-call Jacobian (witness theorems)."
  },
  {
   "property": "C16",
   "status": "partial",
   "theorems": [
    "Hiop.Nlp.C16_obj_factor_pos",
    "Hiop.Nlp.C16_obj_factor_le_one_partial",
    "Hiop.Nlp.C16_obj_limit",
    "Hiop.Nlp.C16_obj_limit_false",
    "Hiop.Nlp.C16_obj_factor_gt_one",
    "Hiop.Nlp.C16_con_factor",
    "Hiop.Nlp.C16_con_target",
    "Hiop.Nlp.C16_con_target_not_per_row",
    "Hiop.Nlp.C16_zero_jacobian_block",
    "Hiop.Nlp.C16_unscaled_iff",
    "Hiop.Nlp.C16_round_trip",
    "Hiop.Nlp.C16_round_trip_inv",
    "Hiop.Nlp.C16_cd_factor_consistent",
    "Hiop.Nlp.C16_cd_factor_inconsistent"
   ],
   "note": "Round trips, positivity, the threshold and the limits are proved; 'factor at most one' and 'norm at most the maximum' fail for some option values and gradients (witness theorems), so those parts carry hypotheses."
  },
  {
   "property": "C17",
   "status": "proved",
   "theorems": [
    "Hiop.Nlp.C17_relax",
    "Hiop.Nlp.C17_relax_fixed",
    "Hiop.Nlp.C17_tightening_history",
    "Hiop.Nlp.C17_adjust_bounds"
   ],
   "note": "Exact amounts for all bounds, and over all histories of tightening."
  },
  {
   "property": "C18",
   "status": "partial",
   "theorems": [
    "Hiop.Kkt.C18_xycyd",
    "Hiop.Kkt.C18_unique",
    "Hiop.Kkt.C18_mds",
    "Hiop.Kkt.C18_low_rank",
    "Hiop.Kkt.C18_low_rank_directions",
    "Hiop.Kkt.C18_dense_partial",
    "Hiop.Kkt.C18_dense_wrong_diagonal",
    "Hiop.Kkt.C18_dense_refuted",
    "Hiop.Sparse.C18_sparse_assembly",
    "Hiop.Sparse.C18_sparse_partial",
    "Hiop.Sparse.C18_sparse_later_calls_refuted",
    "Hiop.Sparse.C18_sparse_dual_perturbation_refuted"
   ],
   "note": "Compression, recovery, MDS, quasi-Newton and sparse assembly proved. Dense assembly writes the dual perturbations at the wrong place (refuted with a witness; proved without them). The sparse formulation keeps a vector across calls: proved for a zeroed vector without dual perturbation, and for every later call proved not to give Newton directions unless no inequality value moves."
  },
  {
   "property": "C19",
   "status": "partial",
   "theorems": [
    "Hiop.Kkt.C19_xdycyd",
    "Hiop.Kkt.C19_normal_equations",
    "Hiop.Kkt.C19_condensed_partial",
    "Hiop.Kkt.C19_condensed_ignores_dual_perturbation",
    "Hiop.Kkt.C19_dense_partial",
    "Hiop.Kkt.C19_dense_wrong_diagonal",
    "Hiop.Kkt.C19_dense_refuted",
    "Hiop.Sparse.C19_sparse_assembly",
    "Hiop.Sparse.C19_sparse"
   ],
   "note": "Compression and recovery proved; the sparse formulation proved end to end for all perturbations. The dense assembly misplaces the dual perturbations, the condensed system ignores them; both are proved without dual perturbation."
  },
  {
   "property": "C20",
   "status": "proved",
   "theorems": [
    "Hiop.Kkt.C20_recovery"
   ],
   "note": "All eight recovered blocks."
  },
  {
   "property": "C21",
   "status": "proved",
   "theorems": [
    "Hiop.Resid.C21_vectors",
    "Hiop.Resid.C21_blocks_fresh",
    "Hiop.Resid.C21_zero_iff_kkt",
    "Hiop.Resid.C21_norms",
    "Hiop.Resid.C21_zero_errors_optimal",
    "Hiop.Resid.C21_infeas_onenorm",
    "Hiop.Resid.C21_soc",
    "Hiop.Resid.C21_copy_stale_violation"
   ],
   "note": "Residual vectors, zero iff perturbed KKT, norms as suprema, zero errors iff KKT point. copyFrom omits the constraint violation (finding)."
  },
  {
   "property": "C22",
   "status": "proved",
   "theorems": [
    "Hiop.Driver.C22_terminates",
    "Hiop.Driver.C22_bound_exists",
    "Hiop.Driver.C22_outcome",
    "Hiop.Driver.C22_trial_bound",
    "Hiop.Driver.C22_user_error",
    "Hiop.Driver.C22_soc_user_error_aborts",
    "Hiop.Driver.C22_accept_every_step_status",
    "Hiop.Driver.C22_zero_min_step_diverges"
   ],
   "note": "All oracle behaviours; bound needs a positive minimum step (zero is allowed by the option range and diverges, separate theorem)."
  },
  {
   "property": "C23",
   "status": "partial",
   "theorems": [
    "Hiop.Driver.C23_relative",
    "Hiop.Driver.C23_off",
    "Hiop.Driver.C23_absolute_exact",
    "Hiop.Driver.C23_absolute_partial",
    "Hiop.Driver.C23_absolute_violated",
    "Hiop.Driver.C23_absolute_can_increase"
   ],
   "note": "The absolute limit is not respected by the code for steps shorter than one; proved for full steps, with violation theorems."
  },
  {
   "property": "C24",
   "status": "partial",
   "theorems": [
    "Hiop.Driver.C24_newton_terminates",
    "Hiop.Driver.C24_quasi_newton_terminates",
    "Hiop.Driver.C24_newton_result",
    "Hiop.Driver.C24_quasi_newton_result_partial",
    "Hiop.Driver.C24_no_divergence",
    "Hiop.Driver.C24_completed_iteration_partial",
    "Hiop.Driver.C24_quasi_newton_pending",
    "Hiop.Driver.C24_soft_restoration_swallows_user_error",
    "Hiop.Driver.C24_refactorization_limit_accepts_stale",
    "Hiop.Driver.C24_accept_every_step_goes_to_restoration"
   ],
   "note": "Iteration bound, callback stop and status meaning proved for all environments; the parts the code violates (pending status in quasi-Newton, swallowed user errors) have witness theorems."
  },
  {
   "property": "C25",
   "status": "proved",
   "theorems": [
    "Hiop.PriDec.C25_no_failure",
    "Hiop.PriDec.C25_too_few",
    "Hiop.PriDec.C25_never_twice",
    "Hiop.PriDec.C25_exactly_once",
    "Hiop.PriDec.C25_sum",
    "Hiop.PriDec.C25_average",
    "Hiop.PriDec.C25_local_master_zero",
    "Hiop.PriDec.C25_clean_finish",
    "Hiop.PriDec.C25_terminates",
    "Hiop.PriDec.C25_bounded_work"
   ],
   "note": "All schedules, all numbers of ranks, both accumulation modes, buffered or synchronous sends. Termination under fairness. MPI point-to-point semantics are the stated trusted model."
  },
  {
   "property": "C26",
   "status": "partial",
   "theorems": [
    "Hiop.Options.C26_in_range",
    "Hiop.Options.C26_never_aborts",
    "Hiop.Options.C26_consistent",
    "Hiop.Options.C26_unknown_ignored",
    "Hiop.Options.C26_set_numeric",
    "Hiop.Options.C26_set_integer",
    "Hiop.Options.C26_set_string",
    "Hiop.Options.C26_set_tolerance",
    "Hiop.Options.C26_file_blocks",
    "Hiop.Options.C26_file_wins",
    "Hiop.Options.C26_rejected_partial",
    "Hiop.Options.C26_rejected_false",
    "Hiop.Options.C26_nan_false",
    "Hiop.Options.C26_hessian_kkt_false",
    "Hiop.Options.C26_pridec",
    "Hiop.Options.C26_pridec_default_false"
   ],
   "note": "All files, histories and build flags. The code violates the full statement in three places, each with a proved counterexample (finding F29): values that are not numbers pass the range check, a refused tolerance still changes the tolerance, and the Hessian/KKT rule is skipped for run-time settings. Token-to-number conversion is an arbitrary function."
  },
  {
   "property": "C27",
   "status": "partial",
   "theorems": [
    "Hiop.Sparse.C27_timesVec",
    "Hiop.Sparse.C27_transTimesVec",
    "Hiop.Sparse.C27_symTimesVec",
    "Hiop.Sparse.C27_timesMatTrans",
    "Hiop.Sparse.C27_addMDinvMt",
    "Hiop.Sparse.C27_addMDinvNt",
    "Hiop.Sparse.C27_addMDinvMt_duplicates_refuted",
    "Hiop.Sparse.C27_timesMatTrans_unsorted_refuted",
    "Hiop.Sparse.C27_transAddUpper",
    "Hiop.Sparse.C27_symAddUpper",
    "Hiop.Sparse.C27_copyToDense",
    "Hiop.Sparse.C27_rowMaxAbs",
    "Hiop.Sparse.C27_rowMaxAbs_dense",
    "Hiop.Sparse.C27_rowMaxAbs_duplicates_refuted",
    "Hiop.Sparse.C27_scaleRow",
    "Hiop.Sparse.C27_addSubDiag_partial",
    "Hiop.Sparse.C27_addSubDiag_refuted",
    "Hiop.Sparse.C27_extractDiagonal",
    "Hiop.Sparse.C27_extractDiagonal_duplicates_refuted",
    "Hiop.Sparse.C27_isDiagonal",
    "Hiop.Sparse.C27_numOffDiag",
    "Hiop.Sparse.C27_copyRowsFrom",
    "Hiop.Sparse.C27_copyRowsBlockFrom",
    "Hiop.Sparse.C27_copyRowsBlock_unsorted_refuted",
    "Hiop.Sparse.C27_copySubDiagonal",
    "Hiop.Sparse.C27_setSubDiagonal",
    "Hiop.Sparse.C27_copyDiagToSubblock",
    "Hiop.Sparse.C27_copySubmatrix",
    "Hiop.Sparse.C27_setJacFR"
   ],
   "note": "Products, additions, norms and piecewise assembly of triplet matrices denote the dense operations on the matrix in which triplets at one position are added. Vector products hold for every triplet list in range (and abort otherwise); matrix products need rows and columns sorted, row copies need sorted rows. Refuted: with repeated positions the weighted product, diagonal extraction and row norms are those of a different matrix; sub-diagonal additions with a nonzero source offset land at the wrong place; unsorted sources are copied incompletely without notice."
  },
  {
   "property": "C28",
   "status": "partial",
   "theorems": [
    "Hiop.Csr.C28_from_triplets",
    "Hiop.Csr.C28_transpose_triplets",
    "Hiop.Csr.C28_transpose",
    "Hiop.Csr.C28_product",
    "Hiop.Csr.C28_sum",
    "Hiop.Csr.C28_scale",
    "Hiop.Csr.C28_form_diag",
    "Hiop.Csr.C28_copy",
    "Hiop.Csr.C28_order_check",
    "Hiop.Csr.C28_diagonal_partial",
    "Hiop.Csr.C28_diagonal_false",
    "Hiop.Csr.C28_empty_false",
    "Hiop.Csr.C28_empty_transpose_false",
    "Hiop.Csr.C28_transpose_twice_false",
    "Hiop.Csr.C28_zero_dim_false"
   ],
   "note": "All shapes, patterns and values with at least one entry, all memory contents handed out by the allocator, all refresh histories; symbolic passes shown to succeed and numeric passes to equal dense algebra. The code violates the statement for matrices without entries, for products and sums with a zero dimension, for a repeated symbolic transposition and for diagonal updates outside the pattern; each has a proved counterexample (finding F30)."
  },
  {
   "property": "C29",
   "status": "proved",
   "theorems": [
    "Hiop.QN.C29_memory",
    "Hiop.QN.C29_curvature",
    "Hiop.QN.C29_sigma",
    "Hiop.QN.C29_total"
   ],
   "note": "All histories of calls. The multiple of the identity is positive when the option sigma0 is (the option admits 0, finding F27)."
  },
  {
   "property": "C30",
   "status": "proved",
   "theorems": [
    "Hiop.PriDec.C30_value",
    "Hiop.PriDec.C30_grad_adds",
    "Hiop.PriDec.C30_taylor",
    "Hiop.PriDec.C30_derivative",
    "Hiop.PriDec.C30_hessian",
    "Hiop.PriDec.C30_value_at_x0",
    "Hiop.PriDec.C30_grad_at_x0",
    "Hiop.PriDec.C30_grad_entries",
    "Hiop.PriDec.C30_convex"
   ],
   "note": "All index lists, repeated indices included."
  },
  {
   "property": "C31",
   "status": "proved",
   "theorems": [
    "Hiop.Nlp.C31_protocol",
    "Hiop.Nlp.C31_answers_in_order",
    "Hiop.Nlp.C31_transient_failure_switches_mode"
   ],
   "note": "All answer streams and request counts."
  },
  {
   "property": "C32",
   "status": "proved",
   "theorems": [
    "Hiop.Iterate.C32_positivity_invariant",
    "Hiop.Iterate.C32_steps_defined",
    "Hiop.Iterate.C32_start_establishes",
    "Hiop.Iterate.C32_slacks_match_bounds",
    "Hiop.Iterate.C32_start_succeeds",
    "Hiop.Iterate.C32_start_fixed_variable_nan"
   ],
   "note": "Invariant over all histories of accepted steps, restorations and elastic bound changes; the starting procedure establishes it when it succeeds; it fails to with a degenerate two-sided variable (witness theorem)."
  },
  {
   "property": "C33",
   "status": "partial",
   "theorems": [
    "Hiop.Filter.C33_infeasibility_cap_partial",
    "Hiop.Filter.C33_cap_violated_in_first_barrier_problem"
   ],
   "note": "False of the code in the first barrier problem (filter only cleared); proved from the first barrier update on."
  },
  {
   "property": "C34",
   "status": "partial",
   "theorems": [
    "Hiop.Mpi.C34_dot",
    "Hiop.Mpi.C34_onenorm",
    "Hiop.Mpi.C34_twonorm",
    "Hiop.Mpi.C34_infnorm",
    "Hiop.Mpi.C34_min_sel",
    "Hiop.Mpi.C34_min",
    "Hiop.Mpi.C34_all_positive",
    "Hiop.Mpi.C34_all_positive_sel",
    "Hiop.Mpi.C34_matches_pattern",
    "Hiop.Mpi.C34_is_zero",
    "Hiop.Mpi.C34_num_less",
    "Hiop.Mpi.C34_num_abs_less",
    "Hiop.Mpi.C34_is_equal",
    "Hiop.Mpi.C34_is_equal_hang",
    "Hiop.Mpi.C34_elementwise",
    "Hiop.Mpi.C34_times_vec",
    "Hiop.Mpi.C34_trans_times_vec",
    "Hiop.Mpi.C34_times_mat_trans",
    "Hiop.Mpi.C34_row_max_abs",
    "Hiop.Mpi.C34_max_abs",
    "Hiop.Mpi.C34_bound_counts",
    "Hiop.Mpi.C34_reduced_offsets",
    "Hiop.Mpi.C34_dual_norms",
    "Hiop.Mpi.C34_step_lengths",
    "Hiop.Mpi.C34_log_barrier",
    "Hiop.Mpi.C34_damping",
    "Hiop.Mpi.C34_residual",
    "Hiop.Mpi.C34_residual_total",
    "Hiop.Mpi.C34_qn_matrix",
    "Hiop.Mpi.C34_qn_solve",
    "Hiop.Mpi.C34_qn_product"
   ],
   "note": "Every listed quantity is proved equal to its one-rank value on every rank, for all partitions and reduction orders (exact arithmetic). The last clause is false: is_equal returns before its collective on ranks whose local sizes differ, so vectors of equal global size with different partitions leave the other ranks waiting (C34_is_equal_hang); C34_is_equal covers equal partitions."
  },
  {
   "property": "C35",
   "status": "proved",
   "theorems": [
    "Hiop.Duals.C35_dense",
    "Hiop.Duals.C35_mds",
    "Hiop.Duals.C35_sparse",
    "Hiop.Duals.C35_initial_dense",
    "Hiop.Duals.C35_initial_mds",
    "Hiop.Duals.C35_initial_sparse",
    "Hiop.Duals.C35_go",
    "Hiop.Duals.C35_unique",
    "Hiop.Duals.C35_definite",
    "Hiop.Duals.C35_residual"
   ],
   "note": "Linear solvers are oracles that fail or answer exactly. For mixed problems the sparse Jacobian triplets are sorted by row and column, for sparse problems by row. For sparse problems a failed solve (as opposed to a failed factorization) sets the multipliers to zero and reports success; C35_sparse says so."
  },
  {
   "property": "C36",
   "status": "partial",
   "theorems": [
    "Hiop.Nlp.C36_scaled_bounds_partial",
    "Hiop.Nlp.C36_reset_drops_scaling",
    "Hiop.Nlp.C36_scaled_bounds_false"
   ],
   "note": "Holds through relaxation and scaling; the elastic-mode reset uses the unscaled originals (violation theorems)."
  },
  {
   "property": "C37",
   "status": "partial",
   "theorems": [
    "Hiop.Nlp.C37_unscaled_partial",
    "Hiop.Nlp.C37_callback_scaled_exact",
    "Hiop.Nlp.C37_callback_unit_objective",
    "Hiop.Nlp.C37_callback_scaled_false",
    "Hiop.Nlp.C37_getter_ignores_multipliers",
    "Hiop.Nlp.C37_getter_scaled_false"
   ],
   "note": "Holds without scaling; with scaling the callback returns multipliers of the problem with squared objective factor, the getter never reads the multipliers."
  },
  {
   "property": "C38",
   "status": "partial",
   "theorems": [
    "Hiop.Nlp.C38_sparse_own_order_partial",
    "Hiop.Nlp.C38_sparse_documented_false",
    "Hiop.Nlp.C38_mds_documented_partial",
    "Hiop.Nlp.C38_mds_scaled_false"
   ],
   "note": "Sparse: right for the order of eval_cons, wrong for the documented order. MDS: right for the documented order without scaling, wrong with scaling when interleaved."
  },
  {
   "property": "C39",
   "status": "proved",
   "theorems": [
    "Hiop.Iterate.C39_step",
    "Hiop.Iterate.C39_bounds_only_widen"
   ],
   "note": "Exact step, safeguard and widening over all histories without elastic mode."
  },
  {
   "property": "C40",
   "status": "partial",
   "theorems": [
    "Hiop.Kkt.C40_full_operator",
    "Hiop.Kkt.C40_error_vectors",
    "Hiop.Kkt.C40_transpose_refuted"
   ],
   "note": "Forward operator and error vectors proved; the transposed application is refuted."
  },
  {
   "property": "C41",
   "status": "partial",
   "theorems": [
    "Hiop.Kkt.C41_refinement_has_no_effect",
    "Hiop.Kkt.C41_refined_residual_refuted"
   ],
   "note": "The refined vector is never copied out: the claim is refuted; what the function returns is characterised exactly."
  },
  {
   "property": "C42",
   "status": "partial",
   "theorems": [
    "Hiop.Krylov.C42_pcg_sound",
    "Hiop.Krylov.C42_bicg_sound",
    "Hiop.Krylov.C42_pcg_monotone",
    "Hiop.Krylov.C42_bicg_monotone_partial",
    "Hiop.Krylov.C42_bicg_giveup_overwrites",
    "Hiop.Krylov.C42_failed_iteration_count",
    "Hiop.Krylov.C42_into_first_partial",
    "Hiop.Krylov.C42_into_other_object",
    "Hiop.Krylov.C42_ir_reports_success_refuted"
   ],
   "note": "Success implies a small true residual, proved for both methods and every operator. Failed solves may report more iterations than the limit; a second iterate object does not receive its solution; the caller of BiCGStab ignores failure (all shown by theorems)."
  },
  {
   "property": "C43",
   "status": "proved",
   "theorems": [
    "Hiop.Kkt.C43_curvature",
    "Hiop.Kkt.C43_test",
    "Hiop.Resid.C43_directional_derivative",
    "Hiop.Resid.C43_descent",
    "Hiop.Resid.C43_strict_descent"
   ],
   "note": ""
  },
  {
   "property": "C44",
   "status": "partial",
   "theorems": [
    "Hiop.QN.C44_positive_definite",
    "Hiop.QN.C44_secant",
    "Hiop.QN.C44_solve",
    "Hiop.QN.C44_solve_total",
    "Hiop.QN.C44_inverse_product",
    "Hiop.QN.C44_product_partial",
    "Hiop.QN.C44_product_false",
    "Hiop.QN.C44_kkt"
   ],
   "note": "Products use another matrix when a stored curvature is below machine epsilon (C44_product_false, finding F27); everything else is proved for all histories in which the barrier diagonal is set after the last update, which is the order the solver uses."
  },
  {
   "property": "C45",
   "status": "partial",
   "theorems": [
    "Hiop.PriDec.C45_stops",
    "Hiop.PriDec.C45_alpha",
    "Hiop.PriDec.C45_tangent_partial",
    "Hiop.PriDec.C45_tangent_false",
    "Hiop.PriDec.C45_base",
    "Hiop.PriDec.C45_ratio",
    "Hiop.PriDec.C45_model_lower_bound",
    "Hiop.PriDec.C45_convg_partial",
    "Hiop.PriDec.C45_num_iterations_false",
    "Hiop.PriDec.C45_success_without_convergence"
   ],
   "note": "Tangency fails when all variables are coupled with a permuted index list; the error measure uses the new coefficient; iteration count and status are not as documented (finding F28)."
  },
  {
   "property": "C46",
   "status": "partial",
   "theorems": [
    "Hiop.Csr.C46_condensed_matrix",
    "Hiop.Csr.C46_ma57",
    "Hiop.Csr.C46_directions",
    "Hiop.Csr.C46_empty_jacobian_false"
   ],
   "note": "CPU compute mode; Jacobian and Hessian triplets sorted with at least one entry each. Without entries in the inequality Jacobian the first call stops on an assertion (C46_empty_jacobian_false, finding F31); without Hessian entries uninitialised memory is read (C28_empty_false). The dual perturbation delta_cd is ignored (C19_condensed_ignores_dual_perturbation)."
  },
  {
   "property": "C47",
   "status": "partial",
   "theorems": [
    "Hiop.Checkpoint.C47_save",
    "Hiop.Checkpoint.C47_save_file",
    "Hiop.Checkpoint.C47_load_exact",
    "Hiop.Checkpoint.C47_rejects",
    "Hiop.Checkpoint.C47_roundtrip",
    "Hiop.Checkpoint.C47_resave_partial",
    "Hiop.Checkpoint.C47_room_partial",
    "Hiop.Checkpoint.C47_start",
    "Hiop.Checkpoint.C47_restart",
    "Hiop.Checkpoint.C47_file_name",
    "Hiop.Checkpoint.C47_file_names_distinct",
    "Hiop.Checkpoint.C47_when",
    "Hiop.Checkpoint.C47_resave_false",
    "Hiop.Checkpoint.C47_room_false",
    "Hiop.Checkpoint.C47_early_false",
    "Hiop.Checkpoint.C47_fallback_false",
    "Hiop.Checkpoint.C47_ranks_false"
   ],
   "note": "The round trip, faithfulness of loads, refusal of bad checkpoints, the schedule and the file names are proved. Three clauses are false of the code and proved so: saving again into the same group fails once the number of pairs has changed, a solver with a shorter secant memory overruns its storage after loading, and a failed load is not undone. Files are the group they hold (sidre's own reading and writing is not modelled)."
  },
  {
   "property": "C48",
   "status": "partial",
   "theorems": [
    "Hiop.Fr.C48_layout",
    "Hiop.Fr.C48_bounds",
    "Hiop.Fr.C48_objective",
    "Hiop.Fr.C48_gradient",
    "Hiop.Fr.C48_constraints",
    "Hiop.Fr.C48_jacobian",
    "Hiop.Fr.C48_jacobian_mds",
    "Hiop.Fr.C48_jacobian_dense",
    "Hiop.Fr.C48_setHessFR",
    "Hiop.Fr.C48_setHessFR_repeated_false",
    "Hiop.Fr.C48_hessian",
    "Hiop.Fr.C48_hessian_mds",
    "Hiop.Fr.C48_hessian_factor_false",
    "Hiop.Fr.C48_params",
    "Hiop.Fr.C48_warm_start",
    "Hiop.Fr.C48_penalty",
    "Hiop.Fr.C48_force_partial",
    "Hiop.Fr.C48_force_false",
    "Hiop.Fr.C48_stop_partial",
    "Hiop.Fr.C48_obj_base",
    "Hiop.Fr.C48_stop_false",
    "Hiop.Fr.C48_failure_false",
    "Hiop.Fr.C48_outcome"
   ],
   "note": "Layout, bounds, objective, gradient, constraints, Jacobians (all three classes), parameters, warm start, the exact l1 penalty and the outcome mapping are proved. The Hessian theorems hold for objective factor 1 only (the code ignores the factor: C48_hessian_factor_false) and when the base Hessian stores each diagonal position at most once (C48_setHessFR_repeated_false). The termination test is as documented only if the stored base objective is that of the iterate (C48_stop_partial); it is not (C48_stop_false). The forced update needs the base bodies at the restoration iterate (C48_force_partial, C48_force_false). Failures of base callbacks are not reported (C48_failure_false). One rank only."
  },
  {
   "property": "C49",
   "status": "partial",
   "theorems": [
    "Hiop.Evals.C49_new_x_partial",
    "Hiop.Evals.C49_caching_user",
    "Hiop.Evals.C49_no_direction_false",
    "Hiop.Evals.C49_restoration_false",
    "Hiop.Evals.C49_restoration_calls"
   ],
   "note": "Proved for every run in which each iteration tries at least one point and the calls of inner restoration solves are themselves truthful (C49_new_x_partial), with the consequence for caching users (C49_caching_user). It is false when an iteration without a search direction accepts the old trial point (C49_no_direction_false) and for the calls the restoration problem makes to the base problem (C49_restoration_false)."
  },
  {
   "property": "C50",
   "status": "partial",
   "theorems": [
    "Hiop.Evals.C50_start",
    "Hiop.Evals.C50_accepted",
    "Hiop.Evals.C50_values_partial",
    "Hiop.Evals.C50_soft_restoration",
    "Hiop.Evals.C50_robust_restoration",
    "Hiop.Evals.C50_restoration_false",
    "Hiop.Evals.C50_failure_false",
    "Hiop.Evals.C50_success_means_all_succeeded",
    "Hiop.Evals.C50_trial_success_means_all_succeeded"
   ],
   "note": "Proved for the starting procedure, for every accepted step from any state, and for all runs without restorations. After restorations the exact provenance of every stored value is proved, which refutes the property (C50_restoration_false); failures in soft restoration, and without assertions in the starting procedure, are not reported (C50_failure_false)."
  },
  {
   "property": "C51",
   "status": "partial",
   "theorems": [
    "Hiop.Lin.C51_sym",
    "Hiop.Lin.C51_pardiso_partial",
    "Hiop.Lin.C51_format",
    "Hiop.Lin.C51_format_assembled",
    "Hiop.Lin.C51_xycyd",
    "Hiop.Lin.C51_xdycyd",
    "Hiop.Lin.C51_pardiso_upper_false",
    "Hiop.Lin.C51_nonsym_first",
    "Hiop.Lin.C51_nonsym_refresh_partial",
    "Hiop.Lin.C51_nonsym_refresh_false"
   ],
   "note": "Proved in full for the solvers that store both triangles (STRUMPACK, Ginkgo, ReSolve), including the systems HiOp assembles and the format of the arrays. For PARDISO it holds for triplets in the lower triangle (C51_pardiso_partial) and fails for a Hessian given by its upper triangle (C51_pardiso_upper_false). For nonsymmetric solvers the first factorization is right; later ones are right for rows in order (C51_nonsym_refresh_partial) and wrong otherwise (C51_nonsym_refresh_false)."
  },
  {
   "property": "C52",
   "status": "proved",
   "theorems": [
    "Hiop.Lin.C52_inertia",
    "Hiop.Lin.C52_answers",
    "Hiop.Lin.C52_zero_pivot",
    "Hiop.Lin.C52_small_false"
   ],
   "note": "About matrixChanged of the LAPACK wrapper as a function of what DSYTRF returns, with DSYTRF assumed to return a congruence to the block diagonal factor whose two by two blocks have a negative determinant (Bunch-Kaufman pivoting). Exact arithmetic. C52_small_false shows that the tolerance is absolute: a nonsingular matrix with tiny entries is reported singular."
  },
  {
   "property": "C53",
   "status": "partial",
   "theorems": [
    "Hiop.Kkt.C53_mds_count_partial",
    "Hiop.Kkt.C53_mds_accepted_partial",
    "Hiop.Kkt.C53_mds_threshold_false",
    "Hiop.Kkt.C53_curvature",
    "Hiop.Kkt.C53_curvature_regularized",
    "Hiop.Kkt.C53_same_inertia",
    "Hiop.Kkt.C53_descent",
    "Hiop.Kkt.mds_inertia"
   ],
   "note": "Full for mixed dense-sparse problems except when a diagonal entry of the sparse block equals -1e-14 exactly, which the code counts as positive (C53_mds_threshold_false). The descent statement needs a point satisfying the constraints and no dual perturbation, as in C43; with dual perturbation C53_curvature_regularized gives the positive form. For sparse problems the count comes from the external solver; C53_same_inertia, C53_curvature and C53_descent apply to it."
  },
  {
   "property": "C54",
   "status": "proved",
   "theorems": [
    "Hiop.Kkt.C54_monotone",
    "Hiop.Kkt.C54_exists",
    "Hiop.Kkt.C54_mds",
    "Hiop.Kkt.C54_dependent",
    "Hiop.Kkt.C54_convex"
   ],
   "note": "In exact arithmetic. Whether the loop reaches a large enough perturbation within its eleven passes and the upper limit 1e20 is not claimed (C11 bounds the passes)."
  },
  {
   "property": "C55",
   "status": "partial",
   "theorems": [
    "Hiop.Compound.C55_setToConstant",
    "Hiop.Compound.C55_copyFrom",
    "Hiop.Compound.C55_newCopy",
    "Hiop.Compound.C55_setToConstantSel",
    "Hiop.Compound.C55_copyFromSel",
    "Hiop.Compound.C55_componentMult",
    "Hiop.Compound.C55_componentDiv",
    "Hiop.Compound.C55_componentDivSel",
    "Hiop.Compound.C55_componentMinC",
    "Hiop.Compound.C55_componentMin",
    "Hiop.Compound.C55_componentMaxC",
    "Hiop.Compound.C55_componentMax",
    "Hiop.Compound.C55_componentAbs",
    "Hiop.Compound.C55_componentSgn",
    "Hiop.Compound.C55_scale",
    "Hiop.Compound.C55_axpy",
    "Hiop.Compound.C55_axpySel",
    "Hiop.Compound.C55_axzpy",
    "Hiop.Compound.C55_axdzpySel",
    "Hiop.Compound.C55_axdzpy",
    "Hiop.Compound.C55_addConstant",
    "Hiop.Compound.C55_addConstantSel",
    "Hiop.Compound.C55_negate",
    "Hiop.Compound.C55_addLinearDampingTerm",
    "Hiop.Compound.C55_selectPattern",
    "Hiop.Compound.C55_adjustDualsPlh",
    "Hiop.Compound.C55_dot",
    "Hiop.Compound.C55_onenorm",
    "Hiop.Compound.C55_sumLocal",
    "Hiop.Compound.C55_infnorm",
    "Hiop.Compound.C55_minAll",
    "Hiop.Compound.C55_minSel",
    "Hiop.Compound.C55_linearDampingTermLocal",
    "Hiop.Compound.C55_fractionToBdrySel",
    "Hiop.Compound.C55_fractionToBdry",
    "Hiop.Compound.C55_allPositive",
    "Hiop.Compound.C55_allPositiveSel",
    "Hiop.Compound.C55_matchesPattern",
    "Hiop.Compound.C55_isZero",
    "Hiop.Compound.C55_numLessThan",
    "Hiop.Compound.C55_numAbsLessThan",
    "Hiop.Compound.C55_logBarrierLocal",
    "Hiop.Compound.C55_twonorm",
    "Hiop.Compound.C55_ofIterate_whole",
    "Hiop.Compound.C55_ofResid_whole",
    "Hiop.Compound.C55_copyFromResid",
    "Hiop.Compound.C55_copyFromIterate",
    "Hiop.Compound.C55_ofIterate_injective",
    "Hiop.Compound.C55_pairing",
    "Hiop.Compound.C55_addLogBarrierGrad_false",
    "Hiop.Compound.C55_addLogBarrierGrad_partial",
    "Hiop.Compound.C55_addVector_false",
    "Hiop.Compound.C55_addVector_ignored",
    "Hiop.Compound.C55_addVector",
    "Hiop.Compound.C55_project_false",
    "Hiop.Compound.C55_project_partial"
   ],
   "note": "Full for all operations except three, for which it is refuted by a witness: addLogBarrierGrad reads the pattern in place of its argument, addVector never counts the part it stores, projectIntoBounds returns true although a part has inconsistent bounds. Their _partial theorems say when they are right. One process; is_equal, print and the index-based operations, which only assert, are not modelled."
  },
  {
   "property": "C56",
   "status": "proved",
   "theorems": [
    "Hiop.Range.C56_copyFromStarting",
    "Hiop.Range.C56_copyFromStartingArr",
    "Hiop.Range.C56_copyToStarting",
    "Hiop.Range.C56_copyToStartingGlobal",
    "Hiop.Range.C56_startingAtCopyFrom",
    "Hiop.Range.C56_startingAtCopyTo_all",
    "Hiop.Range.C56_startingAtCopyTo",
    "Hiop.Range.C56_pack",
    "Hiop.Range.C56_unpack",
    "Hiop.Range.C56_unpack_num",
    "Hiop.Range.C56_unpack_at",
    "Hiop.Range.C56_pack_unpack",
    "Hiop.Range.C56_copyFromIndexes",
    "Hiop.Range.C56_isEqual",
    "Hiop.Range.C56_roundtrip",
    "Hiop.Range.C56_negative_start_false"
   ],
   "note": "For nonnegative offsets, one process and patterns of 0 and 1. C56_negative_start_false: a negative offset is not refused by copyToStarting(dest, start) but treated as 0."
  },
  {
   "property": "C57",
   "status": "partial",
   "theorems": [
    "Hiop.Sparse.C57_newton_partial",
    "Hiop.Sparse.C57_later_calls_false",
    "Hiop.Sparse.C57_absent_kept",
    "Hiop.Sparse.C57_complete"
   ],
   "note": "Proved for the first assembly after Hx_ and Hd_ were zero (C57_newton_partial), with equivalence of the system and the Newton equations (C57_complete). C57_later_calls_false: the code adds the perturbations of every call to Hx_ and Hd_ and never clears them, so later directions are Newton directions for the accumulated perturbations instead."
  },
  {
   "property": "C58",
   "status": "partial",
   "theorems": [
    "Hiop.DenseMat.C58_timesVec",
    "Hiop.DenseMat.C58_transTimesVec",
    "Hiop.DenseMat.C58_timesMat_partial",
    "Hiop.DenseMat.C58_timesMat_empty_false",
    "Hiop.DenseMat.C58_transTimesMat_partial",
    "Hiop.DenseMat.C58_transTimesMat_empty_false",
    "Hiop.DenseMat.C58_timesMatTrans",
    "Hiop.DenseMat.C58_addDiagonal",
    "Hiop.DenseMat.C58_addDiagonalConst",
    "Hiop.DenseMat.C58_addSubDiagonal",
    "Hiop.DenseMat.C58_addSubDiagonalFrom_partial",
    "Hiop.DenseMat.C58_addSubDiagonalFrom_false",
    "Hiop.DenseMat.C58_addSubDiagonalConst",
    "Hiop.DenseMat.C58_addMatrix",
    "Hiop.DenseMat.C58_transAddTo",
    "Hiop.DenseMat.C58_transAddTo_refused",
    "Hiop.DenseMat.C58_addUpperTo",
    "Hiop.DenseMat.C58_new",
    "Hiop.DenseMat.C58_appendRow",
    "Hiop.DenseMat.C58_appendRow_full",
    "Hiop.DenseMat.C58_copyFrom_partial",
    "Hiop.DenseMat.C58_copyFrom_empty_false",
    "Hiop.DenseMat.C58_copyFromBuf",
    "Hiop.DenseMat.C58_copyTo",
    "Hiop.DenseMat.C58_newCopy",
    "Hiop.DenseMat.C58_copyRows",
    "Hiop.DenseMat.C58_copyRowsIdx",
    "Hiop.DenseMat.C58_copyBlock",
    "Hiop.DenseMat.C58_copyFromBlock",
    "Hiop.DenseMat.C58_shiftRows_up",
    "Hiop.DenseMat.C58_shiftRows_down",
    "Hiop.DenseMat.C58_shiftRows_other",
    "Hiop.DenseMat.C58_replaceRow",
    "Hiop.DenseMat.C58_getRow",
    "Hiop.DenseMat.C58_setToConstant",
    "Hiop.DenseMat.C58_setHessFR",
    "Hiop.DenseMat.C58_scaleRow",
    "Hiop.DenseMat.C58_maxAbs",
    "Hiop.DenseMat.C58_rowMaxAbs",
    "Hiop.DenseMat.C58_symmetrize",
    "Hiop.DenseMat.C58_upperWithLower",
    "Hiop.DenseMat.C58_lowerWithUpper"
   ],
   "note": "Every operation is proved for all sizes except: products of matrices with an empty dimension (C58_timesMat_empty_false, C58_transTimesMat_empty_false), the partial diagonal addition reading past the vector its assertion was to protect (C58_addSubDiagonalFrom_false), and copying from a matrix without storage (C58_copyFrom_empty_false), where the code does not do what is documented. One process; isfinite and print not modelled."
  },
  {
   "property": "C59",
   "status": "partial",
   "theorems": [
    "Hiop.Csr.C59_matrix",
    "Hiop.Csr.C59_newton_partial",
    "Hiop.Csr.C59_any_inertia_accepted",
    "Hiop.Csr.C59_first_jacobian_false",
    "Hiop.Csr.C59_dual_update_false",
    "Hiop.Csr.C59_inertia_false",
    "Hiop.Csr.C59_empty_false",
    "Hiop.Perturb.C59_primal_first_kind",
    "Hiop.Perturb.C59_dual_first_kind_false"
   ],
   "note": "C59_matrix gives the entries of the matrix after every history; C59_newton_partial gives the Newton direction when the Jacobian and Hessian diagonal are those of the first call and the primal diagonal has not changed since the last full update. The code does not check these: the direction is wrong when the Jacobian changes (C59_first_jacobian_false) or when a dual-first perturbation changes the primal perturbation and announces a dual update (C59_dual_first_kind_false, C59_dual_update_false). Every inertia is accepted (C59_any_inertia_accepted), and even positive definiteness would not imply the right inertia (C59_inertia_false)."
  },
  {
   "property": "C60",
   "status": "partial",
   "theorems": [
    "Hiop.Mds.C60_timesVec",
    "Hiop.Mds.C60_transTimesVec",
    "Hiop.Mds.C60_times_refused",
    "Hiop.Mds.C60_timesMatTrans_partial",
    "Hiop.Mds.C60_timesMatTrans_alpha_false",
    "Hiop.Mds.C60_transAddTo",
    "Hiop.Mds.C60_rowMaxAbs",
    "Hiop.Mds.C60_scaleRow",
    "Hiop.Mds.C60_setToConstant",
    "Hiop.Mds.C60_setToZero",
    "Hiop.Mds.C60_newCopy",
    "Hiop.Mds.C60_copyRowsFrom",
    "Hiop.Mds.C60_setJacFR",
    "Hiop.Mds.C60_maxAbs",
    "Hiop.Mds.C60_addMatrix_copyFrom_false",
    "Hiop.Mds.C60_symCopyRowsFrom_false",
    "Hiop.Mds.C60_symTimesVec",
    "Hiop.Mds.C60_symAddUpper",
    "Hiop.Mds.C60_sym_rows_false"
   ],
   "note": "Proved for all sizes: products with vectors, additions into an upper triangle, norms, row scaling, constants, copies, selected rows, Jacobian of the feasibility problem. Not what is documented: the product with a transposed matrix ignores its factor (C60_timesMatTrans_alpha_false), sums and copies into an existing matrix always stop on an assertion (C60_addMatrix_copyFrom_false), and for symmetric matrices row copies, row maxima and row scaling fail for all arguments (C60_symCopyRowsFrom_false, C60_sym_rows_false)."
  },
  {
   "property": "C61",
   "status": "partial",
   "theorems": [
    "Hiop.Kron.C61_sort_sum",
    "Hiop.Kron.C61_new_slice",
    "Hiop.Kron.C61_new_slice_rejects",
    "Hiop.Kron.C61_slice_sym_to_sym",
    "Hiop.Kron.C61_slice_from_sym_partial",
    "Hiop.Kron.C61_sparse_times_vec",
    "Hiop.Kron.C61_sparse_trans_times_mat",
    "Hiop.Kron.C61_add_sparse",
    "Hiop.Kron.C61_add_sparse_upper",
    "Hiop.Kron.C61_dense_times_vec_partial",
    "Hiop.Kron.C61_solve",
    "Hiop.Kron.C61_kron",
    "Hiop.Kron.C61_factor_fails",
    "Hiop.Kron.C61_second_go_false",
    "Hiop.Kron.C61_slice_unsorted_false",
    "Hiop.Kron.C61_slice_duplicates_false",
    "Hiop.Kron.C61_slice_from_sym_false",
    "Hiop.Kron.C61_dense_times_vec_false",
    "Hiop.Kron.C61_apply_empty_false",
    "Hiop.Kron.C61_unsymmetric_false",
    "Hiop.Kron.C61_solve_failure_false",
    "Hiop.Kron.C61_singular_false"
   ],
   "note": "The reduction, sorting and adding up, general slices, symmetric-to-symmetric slices, products and solves are proved for all sizes. Not what is documented: new_sliceFromSym loses entries (C61_slice_from_sym_false), the dense product without columns does not scale (C61_dense_times_vec_false, C61_apply_empty_false), matrices that are not symmetric are reduced wrongly without an error (C61_unsymmetric_false), failing solves and singular blocks are not reported (C61_solve_failure_false, C61_singular_false), and an object can be used only once (C61_second_go_false)."
  },
  {
   "property": "C62",
   "status": "partial",
   "theorems": [
    "Hiop.Raja.C62_timesVec",
    "Hiop.Raja.C62_transTimesVec",
    "Hiop.Raja.C62_symTimesVec",
    "Hiop.Raja.C62_timesMatTrans",
    "Hiop.Raja.C62_addMDinvMt",
    "Hiop.Raja.C62_addMDinvNt",
    "Hiop.Raja.C62_copyToDense",
    "Hiop.Raja.C62_transAdd_partial",
    "Hiop.Raja.C62_symAdd_partial",
    "Hiop.Raja.C62_symAdd_abort",
    "Hiop.Raja.C62_addSubDiag_partial",
    "Hiop.Raja.C62_symAdd_refuted",
    "Hiop.Raja.C62_transAdd_refuted",
    "Hiop.Raja.C62_addSubDiag_refuted",
    "Hiop.Raja.C62_rowMaxAbs",
    "Hiop.Raja.C62_scaleRow",
    "Hiop.Raja.C62_setToConstant",
    "Hiop.Raja.C62_maxAbs",
    "Hiop.Raja.C62_isFinite",
    "Hiop.Raja.C62_isDiagonal",
    "Hiop.Raja.C62_numOffDiag",
    "Hiop.Raja.C62_copySubDiagonalFrom",
    "Hiop.Raja.C62_setSubDiagonalTo",
    "Hiop.Raja.C62_copyDiagToSubblock",
    "Hiop.Raja.C62_copySubmatrixFrom_partial",
    "Hiop.Raja.C62_copySubmatrix_offdiag_refuted",
    "Hiop.Raja.C62_copySubmatrix_offdiag_room_refuted",
    "Hiop.Raja.C62_copySubmatrix_trans_refuted",
    "Hiop.Raja.C62_copyDiagToSubblockSel",
    "Hiop.Raja.C62_colPattern_partial",
    "Hiop.Raja.C62_rowPattern_partial",
    "Hiop.Raja.C62_colPattern_refuted",
    "Hiop.Raja.C62_rowPattern_refuted",
    "Hiop.Raja.C62_copyRowsFrom_first",
    "Hiop.Raja.C62_copyRowsFrom_again",
    "Hiop.Raja.C62_copyRowsBlock_first",
    "Hiop.Raja.C62_copyRowsBlock_create",
    "Hiop.Raja.C62_copyRowsBlock_again_partial",
    "Hiop.Raja.C62_copyRowsBlock_refuted",
    "Hiop.Raja.C62_setJacFR",
    "Hiop.Raja.C62_setHessFR_partial",
    "Hiop.Raja.C62_setHessFR_refuted"
   ],
   "note": "Every schedule is covered by a small-step semantics of the loops (Verif/Raja/Sched.lean). Products, weighted products, copies, norms, tests, diagonals, rows and the restoration Jacobian equal the host. Not so: three loops add without atomics and lose updates for repeated positions (C62_symAdd_refuted, C62_transAdd_refuted, C62_addSubDiag_refuted); the assertions of the column and row patterns are exchanged and those of the transposed copy are untransposed (C62_colPattern_refuted, C62_rowPattern_refuted, C62_copySubmatrix_trans_refuted); off-diagonal copies leave holes (C62_copySubmatrix_offdiag_refuted); assembling a block with an empty first row twice stops (C62_copyRowsBlock_refuted); the restoration Hessian uses a null pointer or stops on repeated or empty calls (C62_setHessFR_refuted)."
  },
  {
   "property": "C63",
   "status": "partial",
   "theorems": [
    "Hiop.Raja.C63_setToConstant",
    "Hiop.Raja.C63_setToConstantSel",
    "Hiop.Raja.C63_copyFromSel",
    "Hiop.Raja.C63_componentMult",
    "Hiop.Raja.C63_componentDiv",
    "Hiop.Raja.C63_componentDivSel",
    "Hiop.Raja.C63_componentMinC",
    "Hiop.Raja.C63_componentMin",
    "Hiop.Raja.C63_componentMaxC",
    "Hiop.Raja.C63_componentMax",
    "Hiop.Raja.C63_componentAbs",
    "Hiop.Raja.C63_componentSgn",
    "Hiop.Raja.C63_componentSqrt",
    "Hiop.Raja.C63_scale",
    "Hiop.Raja.C63_axpy",
    "Hiop.Raja.C63_axpySel",
    "Hiop.Raja.C63_axzpy",
    "Hiop.Raja.C63_axdzpy",
    "Hiop.Raja.C63_axdzpySel",
    "Hiop.Raja.C63_addConstant",
    "Hiop.Raja.C63_addConstantSel",
    "Hiop.Raja.C63_negate",
    "Hiop.Raja.C63_invert",
    "Hiop.Raja.C63_addLogBarrierGrad",
    "Hiop.Raja.C63_addLinearDampingTerm",
    "Hiop.Raja.C63_selectPattern",
    "Hiop.Raja.C63_adjustDuals",
    "Hiop.Raja.C63_pattern_abort",
    "Hiop.Raja.C63_dot",
    "Hiop.Raja.C63_twonorm",
    "Hiop.Raja.C63_infnorm",
    "Hiop.Raja.C63_onenorm",
    "Hiop.Raja.C63_sum",
    "Hiop.Raja.C63_minSel",
    "Hiop.Raja.C63_min",
    "Hiop.Raja.C63_logBarrier",
    "Hiop.Raja.C63_linearDampingTerm",
    "Hiop.Raja.C63_allPositive",
    "Hiop.Raja.C63_fractionToBdrySel",
    "Hiop.Raja.C63_fractionToBdry",
    "Hiop.Raja.C63_matchesPattern",
    "Hiop.Raja.C63_allPositiveSel",
    "Hiop.Raja.C63_isZero",
    "Hiop.Raja.C63_any",
    "Hiop.Raja.C63_isFinite",
    "Hiop.Raja.C63_numLessThan",
    "Hiop.Raja.C63_numAbsLessThan",
    "Hiop.Raja.C63_isEqual_partial",
    "Hiop.Raja.C63_isEqual_refuted",
    "Hiop.Raja.C63_project_partial",
    "Hiop.Raja.C63_project_refuted",
    "Hiop.Raja.C63_copyFromStarting",
    "Hiop.Raja.C63_startingAtCopyFrom",
    "Hiop.Raja.C63_copyToStarting",
    "Hiop.Raja.C63_copyToStartingDest",
    "Hiop.Raja.C63_startingAtCopyTo",
    "Hiop.Raja.C63_unpack_refuted",
    "Hiop.Raja.C63_copyFromStartingAt_partial",
    "Hiop.Raja.C63_copyFromStartingAt_refuted",
    "Hiop.Raja.C63_copyFromIndexes",
    "Hiop.Raja.C63_copyFromIndexes_abort",
    "Hiop.Raja.C63_copyFromTwo",
    "Hiop.Raja.C63_copyToTwo",
    "Hiop.Raja.C63_pack_partial",
    "Hiop.Raja.C63_pack_abort",
    "Hiop.Raja.C63_pack_refuted",
    "Hiop.Raja.C63_axpyIdx_partial",
    "Hiop.Raja.C63_axpyIdx_short_refuted",
    "Hiop.Raja.C63_axpyIdx_repeated_refuted"
   ],
   "note": "All element-wise operations, reductions, tests, gathering, merging, splitting and block copies equal the host on every schedule. Not so: projectIntoBounds rejects inverted intervals whose bounds are absent (C63_project_refuted; equal otherwise, C63_project_partial); packing with a second pattern uses the index array of the first (C63_pack_refuted; equal as long as the pattern stays, C63_pack_partial); indexed addition reads past short index vectors and loses updates for repeated indexes (C63_axpyIdx_short_refuted, C63_axpyIdx_repeated_refuted); unpacking does not exist (C63_unpack_refuted); is_equal ignores sizes (C63_isEqual_refuted); the host copy_from_starting_at copies nothing into a longer vector (C63_copyFromStartingAt_refuted)."
  },
  {
   "property": "C64",
   "status": "partial",
   "theorems": [
    "Hiop.Raja.Dense.C64_timesVec",
    "Hiop.Raja.Dense.C64_transTimesVec",
    "Hiop.Raja.Dense.C64_timesMat",
    "Hiop.Raja.Dense.C64_timesMat_mpi_partial",
    "Hiop.Raja.Dense.C64_timesMat_empty_refuted",
    "Hiop.Raja.Dense.C64_transTimesMat",
    "Hiop.Raja.Dense.C64_timesMatTrans",
    "Hiop.Raja.Dense.C64_addDiagonal",
    "Hiop.Raja.Dense.C64_addDiagonalConst",
    "Hiop.Raja.Dense.C64_addSubDiagonal",
    "Hiop.Raja.Dense.C64_addSubDiagonalFrom_partial",
    "Hiop.Raja.Dense.C64_addSubDiagonalFrom_refuted",
    "Hiop.Raja.Dense.C64_addSubDiagonalConst",
    "Hiop.Raja.Dense.C64_addMatrix",
    "Hiop.Raja.Dense.C64_setToConstant",
    "Hiop.Raja.Dense.C64_addTo",
    "Hiop.Raja.Dense.C64_transAddTo",
    "Hiop.Raja.Dense.C64_addUpperTo",
    "Hiop.Raja.Dense.C64_addUpperTo_overrun",
    "Hiop.Raja.Dense.C64_appendRow",
    "Hiop.Raja.Dense.C64_appendRow_full",
    "Hiop.Raja.Dense.C64_copyFrom_partial",
    "Hiop.Raja.Dense.C64_copyFrom_refuted",
    "Hiop.Raja.Dense.C64_copyFromBuf",
    "Hiop.Raja.Dense.C64_copyTo_partial",
    "Hiop.Raja.Dense.C64_copyTo_refuted",
    "Hiop.Raja.Dense.C64_newCopy",
    "Hiop.Raja.Dense.C64_copyRows",
    "Hiop.Raja.Dense.C64_copyRowsIdx",
    "Hiop.Raja.Dense.C64_copyBlock",
    "Hiop.Raja.Dense.C64_copyFromBlock",
    "Hiop.Raja.Dense.C64_shiftRows",
    "Hiop.Raja.Dense.C64_replaceRow",
    "Hiop.Raja.Dense.C64_getRow",
    "Hiop.Raja.Dense.C64_setHessFR_partial",
    "Hiop.Raja.Dense.C64_maxAbs",
    "Hiop.Raja.Dense.C64_rowMaxAbs",
    "Hiop.Raja.Dense.C64_scaleRow_partial",
    "Hiop.Raja.Dense.C64_scaleRow_refuted",
    "Hiop.Raja.Dense.C64_upperWithLower",
    "Hiop.Raja.Dense.C64_lowerWithUpper",
    "Hiop.Raja.Dense.C64_symmetrize"
   ],
   "note": "Every operation has one outcome over all schedules, with the values of C58; symmetrize loads entries that other iterations store, which is shown to be harmless. Not so: scale_row ignores inv_scale (C64_scaleRow_refuted); copyFrom and copy_to copy max_rows_ rows and run past sources or buffers with room for fewer (C64_copyFrom_refuted, C64_copyTo_refuted); timesMat of an MPI build leaves W unscaled when the inner dimension is empty (C64_timesMat_empty_refuted); addSubDiagonal from a part of a vector and addUpperTriangleTo... accept ranges that do not fit (C64_addSubDiagonalFrom_refuted, C64_addUpperTo_overrun)."
  },
  {
   "property": "C65",
   "status": "partial",
   "theorems": [
    "Hiop.Select.C65_solver_xycyd",
    "Hiop.Select.C65_solver_xdycyd_partial",
    "Hiop.Select.C65_named_missing_false",
    "Hiop.Select.C65_xdycyd_hybrid_auto_false",
    "Hiop.Select.C65_xdycyd_hybrid_pardiso_false",
    "Hiop.Select.C65_full_ignores_option_false",
    "Hiop.Select.C65_solver_chol",
    "Hiop.Select.C65_normaleqn_named_false",
    "Hiop.Select.C65_inertia_known_partial",
    "Hiop.Select.C65_required_partial",
    "Hiop.Select.C65_required_false",
    "Hiop.Select.C65_ginkgo_inertia_false",
    "Hiop.Select.C65_system",
    "Hiop.Select.C65_parameters",
    "Hiop.Select.C65_stable_sparse_false",
    "Hiop.Select.C65_default_sparse_false",
    "Hiop.Select.C65_stable_xdycyd",
    "Hiop.Select.C65_auto_strumpack_false",
    "Hiop.Select.C65_mds_stays_safe_false",
    "Hiop.Select.C65_mds_solver",
    "Hiop.Select.C65_keeps_solver_partial"
   ],
   "note": "Proved over all runs: the acceptor requires the proper count (with RAJA, inertia-free, or not condensed), is not combined with STRUMPACK, ReSolve or the LU solvers, the barrier parameters stay in their ranges, the host solver is the documented one and is kept through the run, and MDS uses the stable factorization exactly in safe mode. Not so: the default options abort every sparse problem (C65_default_sparse_false); named solvers that are missing, or named for a system that ignores the name, are not handled as documented; without RAJA the condensed system requires the wrong number; Ginkgo reports no inertia; MDS does not leave safe mode before iteration 100011 (see F58-F60)."
  },
  {
   "property": "C66",
   "status": "partial",
   "theorems": [
    "Hiop.CApi.C66_transparent_partial",
    "Hiop.CApi.C66_codes_ignored_false",
    "Hiop.CApi.C66_new_x_false",
    "Hiop.CApi.C66_runs",
    "Hiop.CApi.C66_never_new_x_false",
    "Hiop.CApi.C66_inner",
    "Hiop.CApi.C66_results",
    "Hiop.CApi.C66_mds_status_false",
    "Hiop.CApi.C66_fortran_status_false",
    "Hiop.CApi.C66_fortran_matrices",
    "Hiop.CApi.C66_fortran_data",
    "Hiop.CApi.C66_fortran_memory_partial",
    "Hiop.CApi.C66_fortran_leak_false",
    "Hiop.CApi.C66_sparse_solver",
    "Hiop.CApi.C66_mds_options",
    "Hiop.CApi.C66_dense_options",
    "Hiop.CApi.C66_fortran_dense_data",
    "Hiop.CApi.C66_fortran_dense_transparent_partial",
    "Hiop.CApi.C66_fortran_dense_new_x_refuted",
    "Hiop.CApi.C66_fortran_dense_jacobian",
    "Hiop.CApi.C66_fortran_dense_layout_refuted"
   ],
   "note": "Proved: for callbacks that always succeed and do not use new_x in objective and gradient, every adaptive run of the solver is the same as with a faithful interface; matrices of Fortran problems are right after every sequence of evaluations; sparse and dense results are handed over; the options set at creation hold in every build. Not so: return codes of callbacks are ignored in every run, no callback is ever told that a point is new, the status is not available for MDS and in Fortran, deleting a Fortran problem keeps one array, and sparse problems need MA57 (see F61-F63)."
  },
  {
   "property": "C67",
   "status": "partial",
   "theorems": [
    "Hiop.Ipopt.C67_one_call",
    "Hiop.Ipopt.C67_separate_partial",
    "Hiop.Ipopt.C67_rows",
    "Hiop.Ipopt.C67_order_false",
    "Hiop.Ipopt.C67_failure_false",
    "Hiop.Ipopt.C67_failure_partial",
    "Hiop.Ipopt.C67_dense",
    "Hiop.Ipopt.C67_dense_one_call_false"
   ],
   "note": "Proved for users with one call for all constraints, and for users with separate calls if the equalities come first; in general the exact rows are given. Not so: other orders of the constraints (the sparse part of the Jacobian is permuted), a failed call for the equalities (reported as success), and dense users with one call (see F64, F65)."
  },
  {
   "property": "C68",
   "status": "partial",
   "theorems": [
    "Hiop.Wrap.C68_ma57",
    "Hiop.Wrap.C68_ma57_singular",
    "Hiop.Wrap.C68_ma57_hang_false",
    "Hiop.Wrap.C68_ma57_warning_false",
    "Hiop.Wrap.C68_pardiso_partial",
    "Hiop.Wrap.C68_pardiso_false",
    "Hiop.Wrap.C68_pardiso_general_false",
    "Hiop.Wrap.C68_strumpack_partial",
    "Hiop.Wrap.C68_strumpack_false",
    "Hiop.Wrap.C68_strumpack_general",
    "Hiop.Wrap.C68_ginkgo_partial",
    "Hiop.Wrap.C68_ginkgo_false",
    "Hiop.Wrap.C68_magma",
    "Hiop.Wrap.C68_magma_nopiv_partial",
    "Hiop.Wrap.C68_magma_nopiv_false",
    "Hiop.Wrap.C68_resolve_glu_partial",
    "Hiop.Wrap.C68_resolve_rf_partial",
    "Hiop.Wrap.C68_resolve_stuck",
    "Hiop.Wrap.C68_resolve_stale_false",
    "Hiop.Wrap.C68_resolve_singular_false",
    "Hiop.Wrap.C68_chol_partial",
    "Hiop.Wrap.C68_chol_false",
    "Hiop.Wrap.C68_chol_permuted"
   ],
   "note": "Proved in full for MA57 (with termination of the reallocation loop), MAGMA with pivoting, and the permutations of Cholesky; for PARDISO, STRUMPACK, Ginkgo, MAGMA without pivoting, ReSolve and Cholesky under conditions that are shown to be needed (see F45, F66, F67)."
  },
  {
   "property": "C69",
   "status": "partial",
   "theorems": [
    "Hiop.Callback.C69_iterate_partial",
    "Hiop.Callback.C69_solution",
    "Hiop.Callback.C69_objective_agrees",
    "Hiop.Callback.C69_history_partial",
    "Hiop.Callback.C69_iterate_scaled_exact",
    "Hiop.Callback.C69_iterate_scaled_false",
    "Hiop.Callback.C69_duals_scaled_exact",
    "Hiop.Callback.C69_duals_scaled_false",
    "Hiop.Callback.C69_removed_exact",
    "Hiop.Callback.C69_iterate_removed_false",
    "Hiop.Callback.C69_full_direct",
    "Hiop.Callback.C69_full_copies_false",
    "Hiop.Callback.C69_full_copies_defined",
    "Hiop.Callback.C69_force_partial",
    "Hiop.Callback.C69_force_refused_false"
   ],
   "note": "Proved without scaling and without removed variables, over all histories; objective and constraint values at the end also with scaling. With scaling or removed variables the code shows other data (F68, witnesses)."
  },
  {
   "property": "C70",
   "status": "partial",
   "theorems": [
    "Hiop.IneqForm.C70_structure",
    "Hiop.IneqForm.C70_contains",
    "Hiop.IneqForm.C70_violation",
    "Hiop.IneqForm.C70_bounded",
    "Hiop.IneqForm.C70_interior",
    "Hiop.IneqForm.C70_violation_relaxed",
    "Hiop.IneqForm.C70_infinite_false",
    "Hiop.IneqForm.C70_merge",
    "Hiop.IneqForm.C70_nnz"
   ],
   "note": "Proved for right-hand sides whose relaxed bounds stay below 1e20 in magnitude; beyond that the claim is false (C70_infinite_false)."
  },
  {
   "property": "C71",
   "status": "partial",
   "theorems": [
    "Hiop.Gpu.launchG_eq",
    "Hiop.Gpu.C71_setToConstant",
    "Hiop.Gpu.C71_componentMult",
    "Hiop.Gpu.C71_copyFrom",
    "Hiop.Gpu.C71_setToConstantSel",
    "Hiop.Gpu.C71_componentDiv",
    "Hiop.Gpu.C71_componentDivSel",
    "Hiop.Gpu.C71_componentMinC",
    "Hiop.Gpu.C71_componentMin",
    "Hiop.Gpu.C71_componentMaxC",
    "Hiop.Gpu.C71_componentMax",
    "Hiop.Gpu.C71_componentAbs",
    "Hiop.Gpu.C71_componentSgn",
    "Hiop.Gpu.C71_componentSqrt",
    "Hiop.Gpu.C71_scale",
    "Hiop.Gpu.C71_axpy",
    "Hiop.Gpu.C71_axzpy",
    "Hiop.Gpu.C71_axdzpy",
    "Hiop.Gpu.C71_axdzpySel",
    "Hiop.Gpu.C71_addConstant",
    "Hiop.Gpu.C71_addConstantSel",
    "Hiop.Gpu.C71_negate",
    "Hiop.Gpu.C71_invert",
    "Hiop.Gpu.C71_addLogBarrierGrad",
    "Hiop.Gpu.C71_addLinearDampingTerm",
    "Hiop.Gpu.C71_selectPattern",
    "Hiop.Gpu.C71_adjustDuals",
    "Hiop.Gpu.C71_copyFromSel_exact",
    "Hiop.Gpu.C71_copyFromSel_partial",
    "Hiop.Gpu.C71_copyFromSel_refuted",
    "Hiop.Gpu.C71_axpySel_exact",
    "Hiop.Gpu.C71_axpySel_partial",
    "Hiop.Gpu.C71_axpySel_refuted",
    "Hiop.Gpu.C71_setArrayFrom",
    "Hiop.Gpu.C71_setArrayConst_partial",
    "Hiop.Gpu.C71_setArrayConst_refuted",
    "Hiop.Gpu.C71_dot",
    "Hiop.Gpu.C71_twonorm",
    "Hiop.Gpu.C71_infnorm",
    "Hiop.Gpu.C71_onenorm",
    "Hiop.Gpu.C71_sum",
    "Hiop.Gpu.C71_linearDampingTerm",
    "Hiop.Gpu.C71_min_partial",
    "Hiop.Gpu.C71_minSel_partial",
    "Hiop.Gpu.C71_allPositive_partial",
    "Hiop.Gpu.C71_empty_refuted",
    "Hiop.Gpu.C71_allPositiveSel_exact",
    "Hiop.Gpu.C71_allPositiveSel_partial",
    "Hiop.Gpu.C71_allPositiveSel_refuted",
    "Hiop.Gpu.C71_fractionToBdrySel_partial",
    "Hiop.Gpu.C71_fractionToBdry_partial",
    "Hiop.Gpu.C71_fractionToBdry_refuted",
    "Hiop.Gpu.C71_logBarrier_partial",
    "Hiop.Gpu.C71_logBarrier_refuted",
    "Hiop.Gpu.C71_matchesPattern",
    "Hiop.Gpu.C71_isZero",
    "Hiop.Gpu.C71_any",
    "Hiop.Gpu.C71_isFinite",
    "Hiop.Gpu.C71_numLessThan",
    "Hiop.Gpu.C71_numAbsLessThan",
    "Hiop.Gpu.C71_project_partial",
    "Hiop.Gpu.C71_project_refuted",
    "Hiop.Gpu.C71_copyFromStarting",
    "Hiop.Gpu.C71_startingAtCopyFrom",
    "Hiop.Gpu.C71_copyToStarting",
    "Hiop.Gpu.C71_copyToStartingDest",
    "Hiop.Gpu.C71_startingAtCopyTo",
    "Hiop.Gpu.C71_unpack_refuted",
    "Hiop.Gpu.C71_copyFromStartingAt_partial",
    "Hiop.Gpu.C71_copyFromIndexes",
    "Hiop.Gpu.C71_copyFromTwo",
    "Hiop.Gpu.C71_copyToTwo",
    "Hiop.Gpu.C71_pack_partial",
    "Hiop.Gpu.C71_pack_outside",
    "Hiop.Gpu.C71_pack_refuted",
    "Hiop.Gpu.C71_axpyIdx_partial",
    "Hiop.Gpu.C71_axpyIdx_refuted",
    "Hiop.Gpu.C71_linspace",
    "Hiop.Gpu.C71_intSetToConstant_exact",
    "Hiop.Gpu.C71_intSetToConstant_refuted"
   ],
   "note": "Proved for all sizes and schedules: every launch visits each index once (launchG_eq) and the element-wise operations, norms, sums, tests, block copies, merging and splitting agree with the host. Patterned copy and addition, patterned positivity, steps to the boundary, minima of empty vectors, projection, packing with changing patterns, indexed addition and integer fills do not (exact outcomes, partial theorems and witnesses; F70-F73)."
  },
  {
   "property": "C72",
   "status": "partial",
   "theorems": [
    "Hiop.Options.C72_file_value_partial",
    "Hiop.Options.C72_order_partial",
    "Hiop.Options.C72_order_refuted",
    "Hiop.Options.C72_tolerance_first",
    "Hiop.Options.C72_tolerance_last",
    "Hiop.Options.C72_line_tokens",
    "Hiop.Options.C72_print_says",
    "Hiop.Options.C72_reload_partial",
    "Hiop.Options.C72_reload_tolerance",
    "Hiop.Options.C72_reload_refuted",
    "Hiop.Options.C72_digits_refuted",
    "Hiop.Options.C72_blank_refuted",
    "Hiop.Options.C72_empty_refuted",
    "Hiop.Options.C72_kkt_refuted"
   ],
   "note": "Proved: a line that is the only one about an option that no consistency rule touches sets it, independent of the order (C72_file_value_partial, C72_order_partial); the listing says, line by line, the printed value of every option (C72_print_says) and reloading gives the printed value when it is readable (C72_reload_partial). Missing because false: order independence for tolerance/acceptable_tolerance and exact reloading (witnesses *_refuted, F74, F75)."
  },
  {
   "property": "C73",
   "status": "partial",
   "theorems": [
    "Hiop.Options.C73_second_pass",
    "Hiop.Options.C73_text_early_partial",
    "Hiop.Options.C73_text_partial",
    "Hiop.Options.C73_filtered",
    "Hiop.Options.C73_defined_exact",
    "Hiop.Options.C73_line_partial",
    "Hiop.Options.C73_call_partial",
    "Hiop.Options.C73_line_refuted",
    "Hiop.Options.C73_call_refuted"
   ],
   "note": "Proved: messages without a per cent sign are printed as written up to 1023 characters, for all lines, calls and reachable stores. Exactly the texts whose per cent signs come in pairs are free of undefined behaviour; witnesses show that a file line and a setter call can violate it (F76)."
  },
  {
   "property": "C74",
   "status": "partial",
   "theorems": [
    "Hiop.Life.C74_no_use_after_release",
    "Hiop.Life.C74_leak_exact",
    "Hiop.Life.C74_one_run_partial",
    "Hiop.Life.C74_two_runs_refuted",
    "Hiop.Life.C74_switch_refuted"
   ],
   "note": "Proved for all histories: no use after release, no double deletion (C74_no_use_after_release), an exact account of what is left (C74_leak_exact), and that one run without the condensed system leaves nothing (C74_one_run_partial). Missing because false: several runs leave perturbation objects, switching back to the fast linear system leaves a linear system (witnesses *_refuted, F77)."
  },
  {
   "property": "C75",
   "status": "partial",
   "theorems": [
    "Hiop.Session.C75_first_run",
    "Hiop.Session.C75_parameters",
    "Hiop.Session.C75_reinitialized",
    "Hiop.Session.C75_scaling_pointer_partial",
    "Hiop.Session.C75_rerun_partial",
    "Hiop.Session.C75_load_sticky",
    "Hiop.Session.C75_moved_bounds_refuted",
    "Hiop.Session.C75_scaled_twice_refuted",
    "Hiop.Session.C75_relaxation_refuted",
    "Hiop.Session.C75_memory_refuted",
    "Hiop.Session.C75_dangling_refuted",
    "Hiop.Session.C75_load_refuted"
   ],
   "note": "Proved for all histories: the first run, the options and barrier parameter and size of every run, reinitialization after a change of the handling of fixed variables, the validity of the scaling pointer while that is not changed, and equality with a new solver for Newton runs that move no bounds on unscaled problems. The rest is false of the code: each missing case has a *_refuted witness (F78)."
  },
  {
   "property": "C76",
   "status": "partial",
   "theorems": [
    "Hiop.Fgmres.C76_reported_residual",
    "Hiop.Fgmres.C76_never_worse",
    "Hiop.Fgmres.C76_stop",
    "Hiop.Fgmres.C76_minimal",
    "Hiop.Fgmres.C76_iterations_partial",
    "Hiop.Fgmres.C76_solve",
    "Hiop.Fgmres.C76_terminates",
    "Hiop.Fgmres.C76_breakdown",
    "Hiop.Fgmres.C76_one_unknown_refuted",
    "Hiop.Fgmres.C76_schemes_agree",
    "Hiop.Fgmres.C76_arnoldi",
    "Hiop.Fgmres.C76_kernel",
    "Hiop.Fgmres.C76_statistics_refuted",
    "Hiop.Fgmres.C76_guard_refuted"
   ],
   "note": "Proved for all matrices, preconditioners and parameters in exact arithmetic as long as no rotation is guarded. Missing because false of the code, each with a *_refuted witness: the reported statistics when the condition holds at a restart, the reasons to stop after the guard against tiny numbers was taken, and no abort when the exact solution is found in builds with assertions (F79)."
  },
  {
   "property": "C77",
   "status": "proved",
   "theorems": [
    "Hiop.Refact.C77_memory",
    "Hiop.Refact.C77_pattern",
    "Hiop.Refact.C77_pivot",
    "Hiop.Refact.C77_implicit_diagonal"
   ],
   "note": "For all factors. That klu_extract returns factors of this form (diagonals stored, no entry twice) is an assumption about KLU; C77_implicit_diagonal shows what happens without it."
  },
  {
   "property": "C78",
   "status": "partial",
   "theorems": [
    "Hiop.Refine.C78_inverse",
    "Hiop.Refine.C78_same_direction_partial",
    "Hiop.Refine.C78_direct_off",
    "Hiop.Refine.C78_off_bounds",
    "Hiop.Refine.C78_converged",
    "Hiop.Refine.C78_accuracy",
    "Hiop.Refine.C78_no_worse_partial",
    "Hiop.Refine.C78_exact_xycyd",
    "Hiop.Refine.C78_exact_xdycyd",
    "Hiop.Refine.C78_zero_rhs",
    "Hiop.Refine.C78_solves_partial",
    "Hiop.Refine.C78_long_rhs_zero_direction",
    "Hiop.Refine.C78_failed_solve_refuted"
   ],
   "note": "(a) for right-hand sides of length at most 1e20 (C78_same_direction_partial, C78_solves_partial); beyond that the zero direction is returned with success (C78_long_rhs_zero_direction). (b) C78_converged and (d) C78_off_bounds hold for every inner solver. (c) for iteration limits below 50 (C78_no_worse_partial); the option allows 100. (e) is false: C78_failed_solve_refuted. The object receiving the direction is that of the first call (C42_into_other_object)."
  },
  {
   "property": "C79",
   "status": "partial",
   "theorems": [
    "Hiop.CsrGpu.C79_diagonal_partial",
    "Hiop.CsrGpu.C79_diagonal_host_partial",
    "Hiop.CsrGpu.C79_missing_diagonal",
    "Hiop.CsrGpu.C79_dropped",
    "Hiop.CsrGpu.C79_extract_partial",
    "Hiop.CsrGpu.C79_scale_rows",
    "Hiop.CsrGpu.C79_from_triplets_partial",
    "Hiop.CsrGpu.C79_form_diag",
    "Hiop.CsrGpu.C79_order_check",
    "Hiop.CsrGpu.C79_empty_row_refuted",
    "Hiop.CsrGpu.C79_overflow_refuted",
    "Hiop.CsrGpu.C79_empty_refuted",
    "Hiop.CsrGpu.C79_unsorted_refuted",
    "Hiop.CsrGpu.C79_hessian_partial",
    "Hiop.CsrGpu.C79_hessian_refuted"
   ],
   "note": "(a) holds when every diagonal position is stored, or (extraction, builds without assertions) when every row has an entry; an empty row makes the search start in the row above (C79_empty_row_refuted), a missing diagonal stops builds with assertions (C79_missing_diagonal) and is ignored without (C79_dropped), more than 2^30 nonzeros overflow (C79_overflow_refuted). (c) for at least one triplet (C79_empty_refuted), and unordered triplets are accepted (C79_unsorted_refuted). (e) fails for Hessians with an empty row (C79_hessian_refuted). cuSPARSE products, sums and transposes are not modelled."
  },
  {
   "property": "C80",
   "status": "partial",
   "theorems": [
    "Hiop.KryKer.C80_inner_products_partial",
    "Hiop.KryKer.C80_unsynchronised",
    "Hiop.KryKer.C80_inner_products_refuted",
    "Hiop.KryKer.C80_mass_axpy",
    "Hiop.KryKer.C80_row_sums",
    "Hiop.KryKer.C80_matrix_norm"
   ],
   "note": "(a) holds on devices whose warps run in lockstep (C80_inner_products_partial); with independent thread scheduling (compute capability 7.0 and later) the last six additions are unsynchronised and the result may be wrong (C80_unsynchronised, C80_inner_products_refuted). (b) for at most 384 columns; the caller has at most 200. (c) proved in full. Real arithmetic, no overflow of 32-bit indices (hypotheses hb)."
  },
  {
   "property": "C81",
   "status": "partial",
   "theorems": [
    "Hiop.Mem.C81_transfer",
    "Hiop.Mem.C81_unsupported",
    "Hiop.Mem.C81_new",
    "Hiop.Mem.C81_mirror",
    "Hiop.Mem.C81_delete",
    "Hiop.Mem.C81_dense",
    "Hiop.Mem.C81_placement_partial",
    "Hiop.Mem.C81_placement_refuted",
    "Hiop.Mem.C81_runs_partial",
    "Hiop.Mem.C81_runs_refuted",
    "Hiop.Mem.C81_served",
    "Hiop.Mem.C81_never_null",
    "Hiop.Mem.C81_refusal_refuted",
    "Hiop.Mem.C81_csr_partial",
    "Hiop.Mem.C81_csr_refuted",
    "Hiop.Mem.C81_raw"
   ],
   "note": "(a), (b) in full for the model of Umpire, CUDA and HIP stated in Model.lean. (c) fails: in builds for a GPU mem_space=host gives host arrays with device loops (C81_runs_refuted), builds without a GPU give sparse matrices in host memory whatever is asked for (C81_placement_refuted), CSR matrices asked for by any name but default are on the device (C81_csr_refuted), and without assertions an unmet request gives a null pointer (C81_refusal_refuted)."
  },
  {
   "property": "C82",
   "status": "partial",
   "theorems": [
    "Hiop.Stats.C82_timer",
    "Hiop.Stats.C82_counts",
    "Hiop.Stats.C82_pattern_calls_refuted",
    "Hiop.Stats.C82_pattern_calls",
    "Hiop.Stats.C82_eval_time",
    "Hiop.Stats.C82_internal_newton",
    "Hiop.Stats.C82_internal_qn",
    "Hiop.Stats.C82_internal_refuted",
    "Hiop.Stats.C82_kkt_partial",
    "Hiop.Stats.C82_kkt_repeated",
    "Hiop.Stats.C82_kkt_refuted",
    "Hiop.Stats.C82_fact_partial",
    "Hiop.Stats.C82_fact_repeated",
    "Hiop.Stats.C82_fact_refuted",
    "Hiop.Stats.C82_spread",
    "Hiop.Stats.C82_spread_refuted"
   ],
   "note": "Counts, total time and times of the evaluations in full, except that calls asking a sparse problem for a pattern (at most one for the Jacobian and one for the Hessian) are not counted (C82_pattern_calls, C82_pattern_calls_refuted). The other times are wrong in the code on stated paths: internal time (C82_internal_newton, C82_internal_qn give the exact excess, C82_internal_refuted), KKT time when the linear solve is repeated (C82_kkt_repeated, C82_kkt_refuted), factorization time of the inertia-free strategy (C82_fact_repeated, C82_fact_refuted), standard deviation (C82_spread, C82_spread_refuted). Not modelled: the remaining constituents of the KKT time, the statistics of the linear solvers, the text of the report."
  },
  {
   "property": "C83",
   "status": "partial",
   "theorems": [
    "Hiop.FrMpi.C83_partition",
    "Hiop.FrMpi.C83_partition_one",
    "Hiop.FrMpi.C83_partition_refuted",
    "Hiop.FrMpi.C83_bounds",
    "Hiop.FrMpi.C83_cons_bounds",
    "Hiop.FrMpi.C83_var_kinds_refuted",
    "Hiop.FrMpi.C83_cons_kinds_refuted",
    "Hiop.FrMpi.C83_objective",
    "Hiop.FrMpi.C83_gradient",
    "Hiop.FrMpi.C83_constraints",
    "Hiop.FrMpi.C83_jacobian",
    "Hiop.FrMpi.C83_warm_start",
    "Hiop.FrMpi.C83_force"
   ],
   "note": "In full for a problem with a distribution, except the kinds (linear or not) of the auxiliary variables and of some constraints, which are never written (C83_var_kinds_refuted, C83_cons_kinds_refuted). Refuted for a problem without a distribution on several ranks (C83_partition_refuted). The termination test of the restoration and the stored base objective are modelled on one rank only (C48)."
  },
  {
   "property": "C84",
   "status": "partial",
   "theorems": [
    "Hiop.RemMpi.C84_setup",
    "Hiop.RemMpi.C84_distribution",
    "Hiop.RemMpi.C84_expand",
    "Hiop.RemMpi.C84_restrict",
    "Hiop.RemMpi.C84_jacobian",
    "Hiop.RemMpi.C84_points",
    "Hiop.RemMpi.C84_no_distribution_refuted",
    "Hiop.RemMpi.C84_replicated_counts_refuted"
   ],
   "note": "In full for a problem with a distribution. Refuted for one whose interface gives none: in a build with MPI the removal stops at an assertion even on one rank (C84_no_distribution_refuted), and on several ranks the counters of bounds and fixed variables are multiplied by the number of ranks (C84_replicated_counts_refuted)."
  },
  {
   "property": "C85",
   "status": "partial",
   "theorems": [
    "Hiop.IterLog.C85_newton_log_partial",
    "Hiop.IterLog.C85_quasi_newton_log",
    "Hiop.IterLog.C85_letters",
    "Hiop.IterLog.C85_message",
    "Hiop.IterLog.C85_took_unique",
    "Hiop.IterLog.C85_step_error_silent_refuted",
    "Hiop.IterLog.C85_user_error_silent_refuted",
    "Hiop.IterLog.C85_stale_column_refuted"
   ],
   "note": "In full for the quasi-Newton solver's table and, unless the refactorization limit is reached, for the Newton solver's (builds with assertions). Refuted: no message after a failed step computation or a failed user function (C85_step_error_silent_refuted, C85_user_error_silent_refuted); a stale column after the refactorization limit (C85_stale_column_refuted)."
  },
  {
   "property": "C86",
   "status": "partial",
   "theorems": [
    "Hiop.IntVec.C86_linspace_host_partial",
    "Hiop.IntVec.C86_linspace_host_refuted",
    "Hiop.IntVec.C86_linspace_raja",
    "Hiop.IntVec.C86_linspace_device_partial",
    "Hiop.IntVec.C86_linspace_device_refuted",
    "Hiop.IntVec.C86_indices",
    "Hiop.IntVec.C86_constant",
    "Hiop.IntVec.C86_copy",
    "Hiop.IntVec.C86_compound",
    "Hiop.IntVec.C86_coupling"
   ],
   "note": "In full on RAJA, for constants, copies and compound vectors on the host, and for the way the library uses evenly spaced values (C86_indices, C86_coupling). Refuted for evenly spaced values at the boundary of the type: the host computes the value after the last (C86_linspace_host_refuted), the device the product of index and increment (C86_linspace_device_refuted). Constants on CUDA and HIP: C71."
  },
  {
   "property": "C87",
   "status": "proved",
   "theorems": [
    "Hiop.ProbType.C87_every_evaluation",
    "Hiop.ProbType.C87_type_irrelevant",
    "Hiop.ProbType.C87_restoration_type",
    "Hiop.ProbType.C87_evaluated_once_refuted",
    "Hiop.ProbType.C87_linear_test_sound",
    "Hiop.ProbType.C87_quadratic_test_refuted"
   ],
   "note": "In full. The reason is that the shortcuts for linear and quadratic problems are never taken (F92): constant derivatives are evaluated again each time (C87_evaluated_once_refuted). Were they enabled, the one for linear problems would be sound (C87_linear_test_sound) and the one for the gradient of quadratic problems wrong (C87_quadratic_test_refuted)."
  },
  {
   "property": "C88",
   "status": "partial",
   "theorems": [
    "Hiop.StartPt.C88_primal_dual_partial",
    "Hiop.StartPt.C88_warm_start_partial",
    "Hiop.StartPt.C88_point",
    "Hiop.StartPt.C88_no_point",
    "Hiop.StartPt.C88_projected",
    "Hiop.StartPt.C88_invariant",
    "Hiop.StartPt.C88_invariant_warm",
    "Hiop.StartPt.C88_removed_refuted",
    "Hiop.StartPt.C88_warm_default_refuted",
    "Hiop.StartPt.C88_failed_call_refuted",
    "Hiop.StartPt.C88_scaled_refuted"
   ],
   "note": "Kept exactly: C88_primal_dual_partial and C88_warm_start_partial (partial because of the removed variables, below); point only and no point: C88_point, C88_no_point (which reduce to the starting procedure of C04 and C32); positivity: C88_invariant, C88_invariant_warm. Refuted: multipliers with removed variables (the arrays are too short), announcements of a failed call, warm_start without get_warmstart_point, and multipliers under scaling (F93)."
  },
  {
   "property": "C89",
   "status": "partial",
   "theorems": [
    "Hiop.PdSession.C89_every_run",
    "Hiop.PdSession.C89_run_again",
    "Hiop.PdSession.C89_released",
    "Hiop.PdSession.C89_no_iterations_refuted",
    "Hiop.PdSession.C89_bounds_refuted",
    "Hiop.PdSession.C89_is_C45",
    "Hiop.PdSession.C89_basecase_pointer_refuted"
   ],
   "note": "In full on one rank for settings with alpha_min <= alpha_max and max_iter >= 1 (C89_every_run, C89_run_again, C89_released; C89_is_C45 identifies every run of a user without memory with a run of C45, so its stopping rule holds after every history). Refuted: the pointer in the basecase of a later run is dangling (C89_basecase_pointer_refuted), the setters do not check (C89_no_iterations_refuted, C89_bounds_refuted). Coupling of all variables needs the identity as index list (F28)."
  },
  {
   "property": "C90",
   "status": "partial",
   "theorems": [
    "Hiop.UserArgs.C90_nothing_removed",
    "Hiop.UserArgs.C90_dense",
    "Hiop.UserArgs.C90_other_classes_partial",
    "Hiop.UserArgs.C90_jacobian_size_refuted",
    "Hiop.UserArgs.C90_hessian_point_refuted",
    "Hiop.UserArgs.C90_hessian_new_x_refuted",
    "Hiop.UserArgs.C90_mixed_aborts",
    "Hiop.UserArgs.C90_sparse_run_aborts",
    "Hiop.UserArgs.C90_run_partial"
   ],
   "note": "In full without removal in every class (C90_nothing_removed) and with removal for dense problems (C90_dense; over complete runs C90_run_partial, composed with C49). For mixed and sparse problems with removal, objective, gradient, constraints and the point of the Jacobians (C90_other_classes_partial); refuted there: number of variables of the Jacobians, Hessians, new_x of Hessians; with assertions such a problem ends the program (C90_mixed_aborts, C90_sparse_run_aborts)."
  },
  {
   "property": "C91",
   "status": "partial",
   "theorems": [
    "Hiop.SoftFr.C91_success_partial",
    "Hiop.SoftFr.C91_failure",
    "Hiop.SoftFr.C91_evaluations",
    "Hiop.SoftFr.C91_course",
    "Hiop.SoftFr.C91_first_accepted",
    "Hiop.SoftFr.C91_filter_refuted",
    "Hiop.SoftFr.C91_user_error_refuted"
   ],
   "note": "C91_success_partial, C91_failure, C91_evaluations for every course, C91_course and C91_first_accepted for the converse. Refuted: after ten rejected trial points success is reported with a rejected point (C91_filter_refuted); a failing user function is reported as success (C91_user_error_refuted)."
  },
  {
   "property": "C92",
   "status": "partial",
   "theorems": [
    "Hiop.KktFile.C92_file_partial",
    "Hiop.KktFile.C92_symmetric",
    "Hiop.KktFile.C92_reading_unique",
    "Hiop.KktFile.C92_nonzero_refuted",
    "Hiop.KktFile.C92_normal_equation_refuted",
    "Hiop.KktFile.C92_second_solver_refuted"
   ],
   "note": "C92_file_partial for dense and mixed systems: every file of every sequence of calls parses to its system within half a unit of the twentieth decimal; C92_reading_unique, C92_symmetric. Refuted: small nonzeros are written as zero (C92_nonzero_refuted), the normal equation writes no matrix (C92_normal_equation_refuted), a second solver replaces the files (C92_second_solver_refuted). Missing: the writer of triplet matrices."
  }
 ]
}