{
 "claims": [
  {
   "property": "C01",
   "status": "proved",
   "theorems": [
    "Verif.Survey.Props.C01_constructors_enforce_uniqueness",
    "Verif.Survey.Props.C01_slices_are_consecutive",
    "Verif.Survey.Props.C01_slices_partition",
    "Verif.Survey.Props.C01_get_slice",
    "Verif.Survey.Props.C01_fresh_nD"
   ],
   "note": "slices are consecutive, disjoint, cover 0..nD, for every survey accepted by the constructors"
  },
  {
   "property": "C02",
   "status": "proved",
   "theorems": [
    "Verif.Data.Props.C02_last_write_wins",
    "Verif.Data.Props.C02_isolation",
    "Verif.Data.Props.C02_assignment_errors"
   ],
   "note": "length-1 values broadcast, as numpy does; other wrong lengths raise"
  },
  {
   "property": "C03",
   "status": "proved",
   "theorems": [
    "Verif.Survey.Props.C03_dpred_is_concatenation",
    "Verif.Survey.Props.C03_dpred_entries"
   ],
   "note": ""
  },
  {
   "property": "C04",
   "status": "partial",
   "theorems": [
    "Verif.Survey.Props.C04_nD_is_stale",
    "Verif.Survey.Props.C04_nD_frozen_at_first_read",
    "Verif.Survey.Props.C04_nD_matches_partial"
   ],
   "note": "violated by the code: nD is cached at first read (C04_nD_is_stale). Holds when receivers are not changed after the first read (C04_nD_matches_partial)"
  },
  {
   "property": "C05",
   "status": "proved",
   "theorems": [
    "Verif.Fields.Props.C05_source_indices",
    "Verif.Fields.Props.C05_source_columns_partition",
    "Verif.Fields.Props.C05_last_write_wins",
    "Verif.Fields.Props.C05_unwritten_columns",
    "Verif.Fields.Props.C05_unknown_names",
    "Verif.Fields.Props.C05_alias"
   ],
   "note": ""
  },
  {
   "property": "C06",
   "status": "partial",
   "theorems": [
    "Verif.Receivers.Props.C06_projection_cache_partial",
    "Verif.Receivers.Props.C06_without_store_always_fresh",
    "Verif.Receivers.Props.C06_moved_receiver_is_stale",
    "Verif.Receivers.Props.C06_moved_receiver_keeps_projection",
    "Verif.Receivers.Props.C06_time_receiver_ignores_grid",
    "Verif.Receivers.Props.C06_time_projection_cache_partial",
    "Verif.Receivers.Props.C06_time_without_store_always_fresh",
    "Verif.Receivers.Props.C06_time_first_grid_wins"
   ],
   "note": "violated by the code when locations are reassigned (C06_moved_receiver_is_stale) and for time projections (C06_time_receiver_ignores_grid); the cache is exact otherwise"
  },
  {
   "property": "C07",
   "status": "partial",
   "theorems": [
    "Verif.Data.Props.C07_uncertainties_always_valid",
    "Verif.Data.Props.C07_standard_deviation",
    "Verif.Data.Props.C07_standard_deviation_round_trip",
    "Verif.Data.Props.C07_rejected_assignment_is_atomic",
    "Verif.Data.Props.C07_rejected_std_erases_relative_error",
    "Verif.Data.Props.C07_rejected_std_partial",
    "Verif.Data.Props.C07_constructor"
   ],
   "note": "violated by the code for a rejected standard_deviation assignment (C07_rejected_std_erases_relative_error); everything else proved"
  },
  {
   "property": "C08",
   "status": "proved",
   "theorems": [
    "Verif.Objective.Props.C08_expression_value",
    "Verif.Objective.Props.C08_combo_value"
   ],
   "note": "expressions over +, scalar *, scalar /"
  },
  {
   "property": "C09",
   "status": "proved",
   "theorems": [
    "Verif.Objective.Props.C09_gradient",
    "Verif.Objective.Props.C09_hessian"
   ],
   "note": ""
  },
  {
   "property": "C10",
   "status": "proved",
   "theorems": [
    "Verif.Objective.Props.C10_expression_accepted_iff",
    "Verif.Objective.Props.C10_constructor",
    "Verif.Objective.Props.C10_multipliers_setter"
   ],
   "note": "objects are values: later mutation of a member (for instance its mapping) is not modelled"
  },
  {
   "property": "C11",
   "status": "proved",
   "theorems": [
    "Verif.Objective.Props.C11_value",
    "Verif.Objective.Props.C11_gradient",
    "Verif.Objective.Props.C11_deriv2_forms_agree",
    "Verif.Objective.Props.C11_deriv2_symmetric_psd",
    "Verif.Objective.Props.C11_hessian_of_affine",
    "Verif.Objective.Props.C11_combo_W"
   ],
   "note": ""
  },
  {
   "property": "C12",
   "status": "partial",
   "theorems": [
    "Verif.Misfit.Props.C12_value",
    "Verif.Misfit.Props.C12_value_default",
    "Verif.Misfit.Props.C12_gradient",
    "Verif.Misfit.Props.C12_gauss_newton_partial",
    "Verif.Misfit.Props.C12_default_weights_symmetric",
    "Verif.Misfit.Props.C12_deriv2_wrong_for_nonsymmetric_W"
   ],
   "note": "value and gradient proved for every W; the Gauss-Newton product is right for symmetric W only, and wrong otherwise (C12_deriv2_wrong_for_nonsymmetric_W)"
  },
  {
   "property": "C13",
   "status": "partial",
   "theorems": [
    "Verif.Misfit.Props.C13_first_read",
    "Verif.Misfit.Props.C13_weights_follow_uncertainties_partial",
    "Verif.Misfit.Props.C13_assigned_weights_stick",
    "Verif.Misfit.Props.C13_rejected_assignment",
    "Verif.Misfit.Props.C13_weights_are_stale",
    "Verif.Misfit.Props.C13_invalid_uncertainty_unnoticed"
   ],
   "note": "violated by the code: weights are cached at first evaluation (C13_weights_are_stale)"
  },
  {
   "property": "C14",
   "status": "partial",
   "theorems": [
    "Verif.InvProblem.Props.C14_trade_off_sum_partial",
    "Verif.InvProblem.Props.C14_beta",
    "Verif.InvProblem.Props.C14_misaligned_always_raises"
   ],
   "note": "proved when terms without simulation come last; otherwise evalFunction always raises IndexError (C14_misaligned_always_raises)"
  },
  {
   "property": "C15",
   "status": "proved",
   "theorems": [
    "Verif.Maps.Props.C15_apply",
    "Verif.Maps.Props.C15_chain_rule",
    "Verif.Maps.Props.C15_deriv_vector"
   ],
   "note": "differentiable components are a hypothesis on the leaf maps"
  },
  {
   "property": "C16",
   "status": "partial",
   "theorems": [
    "Verif.Maps.Elementary.Props.C16_exact_derivative_partial",
    "Verif.Maps.Elementary.Props.C16_inverse",
    "Verif.Maps.Elementary.Props.C16_sigmoid_range",
    "Verif.Maps.Elementary.Props.C16_violated_log_small"
   ],
   "note": "violated by the code: the derivative of LogMap is zero for positive values below 1e-16 (C16_violated_log_small); everything else proved"
  },
  {
   "property": "C17",
   "status": "partial",
   "theorems": [
    "Verif.Maps.Props.C17_composition_partial",
    "Verif.Maps.Props.C17_linear_map_without_offset",
    "Verif.Maps.Props.C17_affine_maps_report_linear"
   ],
   "note": "violated by affine maps that report is_linear = True (C17_affine_maps_report_linear); compositions are sound relative to their members"
  },
  {
   "property": "C18",
   "status": "partial",
   "theorems": [
    "Verif.Maps.Props.C18_accepted_is_applicable_partial",
    "Verif.Maps.Props.C18_constructor",
    "Verif.Maps.Props.C18_free_map_hides_mismatch",
    "Verif.Maps.Props.C18_applicable_iff"
   ],
   "note": "proved without free shapes inside the chain; a free-shape map hides a mismatch (C18_free_map_hides_mismatch); C18_applicable_iff is the exact criterion"
  },
  {
   "property": "C19",
   "status": "proved",
   "theorems": [
    "Verif.Maps.Wires.Props.C19_partition",
    "Verif.Maps.Wires.Props.C19_apply",
    "Verif.Maps.Wires.Props.C19_accepts"
   ],
   "note": ""
  },
  {
   "property": "C20",
   "status": "proved",
   "theorems": [
    "Verif.Maps.Inject.Props.C20_value",
    "Verif.Maps.Inject.Props.C20_inverse",
    "Verif.Maps.Inject.Props.C20_deriv"
   ],
   "note": "for a validated Boolean mask; changing active_cells after construction is not modelled"
  },
  {
   "property": "C21",
   "status": "proved",
   "theorems": [
    "Verif.HasModel.Props.C21_single_source",
    "Verif.HasModel.Props.C21_read",
    "Verif.HasModel.Props.C21_product",
    "Verif.HasModel.Props.C21_unset",
    "Verif.HasModel.Props.C21_deriv"
   ],
   "note": "C21_deriv: both properties of a reciprocal pair have maps, or none, as in every class of the package"
  },
  {
   "property": "C22",
   "status": "partial",
   "theorems": [
    "Verif.HasModel.Setter.Props.C22_read_after_drift_partial",
    "Verif.HasModel.Setter.Props.C22_real_change_refreshes",
    "Verif.HasModel.Setter.Props.C22_unbounded_drift",
    "Verif.HasModel.Setter.Props.C22_inplace_change_unnoticed"
   ],
   "note": "violated by the code: a change within np.allclose, or in place, keeps caches of the old model (C22_unbounded_drift, C22_inplace_change_unnoticed)"
  },
  {
   "property": "C23",
   "status": "proved",
   "theorems": [
    "Verif.Optim.Props.C23_decision",
    "Verif.Optim.Props.C23_no_stoppers",
    "Verif.Optim.Props.C23_monotone"
   ],
   "note": ""
  },
  {
   "property": "C24",
   "status": "partial",
   "theorems": [
    "Verif.Optim.Props.C24_success",
    "Verif.Optim.Props.C24_bounded",
    "Verif.Optim.Props.C24_binding_accepts_increase"
   ],
   "note": "proved without the binding-set stopper that ProjectedGradient adds; with it an increase can be accepted (C24_binding_accepts_increase)"
  },
  {
   "property": "C25",
   "status": "partial",
   "theorems": [
    "Verif.Optim.Props.C25_terminates",
    "Verif.Optim.Props.C25_fuel_irrelevant",
    "Verif.Optim.Props.C25_accepted_steps_partial",
    "Verif.Optim.Props.C25_monotone_partial",
    "Verif.Optim.Props.C25_monotone_convex_partial",
    "Verif.Optim.Props.C25_violated_binding",
    "Verif.Optim.Props.C25_descent_unconstrained"
   ],
   "note": "violated by the code for ProjectedGradient, whose line search accepts points where all components are bound (C25_violated_binding), and without require_decrease; proved for all other optimisers. Direction, gradient, objective and callbacks are arbitrary functions of iteration and point; failing callbacks are not modelled"
  },
  {
   "property": "C26",
   "status": "proved",
   "theorems": [
    "Verif.Optim.Props.C26_projection",
    "Verif.Optim.Props.C26_run_feasible",
    "Verif.Optim.Props.C26_sets",
    "Verif.Optim.Props.C26_projected_gradient_descends",
    "Verif.Optim.Props.C26_inconsistent_bounds_accepted"
   ],
   "note": "lower <= upper is not checked by the code and is a hypothesis (C26_inconsistent_bounds_accepted)"
  },
  {
   "property": "C27",
   "status": "proved",
   "theorems": [
    "Verif.Optim.BFGS.Props.C27_descent",
    "Verif.Optim.BFGS.Props.C27_symmetric_positive",
    "Verif.Optim.BFGS.Props.C27_pairs_are_mismatched",
    "Verif.Optim.BFGS.Props.C27_newest_update_ignored",
    "Verif.Optim.BFGS.Props.C27_secant_full_memory",
    "Verif.Optim.BFGS.Props.C27_secant_first_update",
    "Verif.Optim.BFGS.Props.C27_memory"
   ],
   "note": "initial operator positive definite; nbfgs >= 1. C27_secant_full_memory and C27_secant_first_update give the pair for which the secant equation holds; C27_memory says which columns are written. C27_pairs_are_mismatched and C27_newest_update_ignored record that the stored pairs are not those of the BFGS formula"
  },
  {
   "property": "C28",
   "status": "partial",
   "theorems": [
    "Verif.Optim.Props.C28_scaling_partial",
    "Verif.Optim.Props.C28_negative_component_unlimited",
    "Verif.Optim.Props.C28_limited_iff"
   ],
   "note": "violated for directions whose largest component by absolute value is negative (C28_negative_component_unlimited): the code takes abs(max(p))"
  },
  {
   "property": "C29",
   "status": "partial",
   "theorems": [
    "Verif.Meta.Props.C29_adjoint",
    "Verif.Meta.Props.C29_layout",
    "Verif.Meta.Props.C29_derivative",
    "Verif.Meta.State.Props.C29_history_partial",
    "Verif.Meta.State.Props.C29_small_change_not_seen"
   ],
   "note": "layout, adjointness and derivative proved; over histories only for model changes that np.allclose notices (C29_small_change_not_seen is the counterexample)"
  },
  {
   "property": "C30",
   "status": "partial",
   "theorems": [
    "Verif.Meta.Props.C30_sum_dpred",
    "Verif.Meta.Props.C30_sum_adjoint",
    "Verif.Meta.State.Props.C30_repeated_history",
    "Verif.Meta.State.Props.C30_repeated_eq_meta_partial"
   ],
   "note": "sum and repeated simulation proved; equality of repeated and independent copies over histories only for changes that np.allclose notices"
  },
  {
   "property": "C31",
   "status": "partial",
   "theorems": [
    "Verif.Meta.JtJ.Props.C31_diagonal_partial",
    "Verif.Meta.JtJ.Props.C31_history_partial",
    "Verif.Meta.JtJ.Props.C31_weights_are_stale",
    "Verif.Meta.JtJ.Props.C31_wrong_for_mixing_map"
   ],
   "note": "violated by the code: cached across weights (C31_weights_are_stale) and wrong for mappings that mix cells (C31_wrong_for_mixing_map)"
  },
  {
   "property": "C32",
   "status": "proved",
   "theorems": [
    "Verif.Meta.Chunks.Props.C32_chunks",
    "Verif.Meta.Chunks.Props.C32_zero_processes"
   ],
   "note": ""
  },
  {
   "property": "C33",
   "status": "partial",
   "theorems": [
    "Verif.Meta.ChunkLayout.Props.C33_chunks_layout",
    "Verif.Meta.Parallel.Props.C33_parallel_eq_serial_partial",
    "Verif.Meta.Parallel.Props.C33_desync_after_exception"
   ],
   "note": "proved for every schedule when no worker raises; after an exception in a worker replies are out of step (C33_desync_after_exception). Worker death, timeouts and join are not modelled"
  },
  {
   "property": "C34",
   "status": "proved",
   "theorems": [
    "Verif.Directives.Props.C34_closed_form",
    "Verif.Directives.Props.C34_positive_monotone"
   ],
   "note": "other directives and the optimiser leave beta alone"
  },
  {
   "property": "C35",
   "status": "partial",
   "theorems": [
    "Verif.Directives.Props.C35_beta_follows_misfit_partial",
    "Verif.Directives.Props.C35_perfect_fit_raises"
   ],
   "note": "for a positive misfit; a misfit of exactly zero makes the directive raise (C35_perfect_fit_raises)"
  },
  {
   "property": "C36",
   "status": "proved",
   "theorems": [
    "Verif.Directives.Props.C36_irls_budget"
   ],
   "note": "directives listed after UpdateIRLS do not withdraw its request to stop; exceptions allowed"
  },
  {
   "property": "C37",
   "status": "partial",
   "theorems": [
    "Verif.Directives.Props.C37_target_misfit_ends_run_partial",
    "Verif.Directives.Props.C37_standard_directives",
    "Verif.Directives.Props.C37_request_withdrawn_by_irls",
    "Verif.Directives.Props.C37_stop_honoured_partial",
    "Verif.Directives.Props.C37_request_in_initialize_is_lost"
   ],
   "note": "violated by the code: UpdateIRLS withdraws a stop requested by an earlier directive (C37_request_withdrawn_by_irls), and requests made in initialize are cleared (C37_request_in_initialize_is_lost); proved when no later directive withdraws"
  },
  {
   "property": "C38",
   "status": "proved",
   "theorems": [
    "Verif.Directives.Props.C38_life_cycle",
    "Verif.Directives.Props.C38_prefix_on_error",
    "Verif.Directives.Props.C38_terminates"
   ],
   "note": "exceptions of the optimiser itself are not modelled"
  },
  {
   "property": "C39",
   "status": "partial",
   "theorems": [
    "Verif.Reg.Props.C39_weights_partial",
    "Verif.Reg.Props.C39_remove_unknown",
    "Verif.Reg.Props.C39_rejected_call_is_stale",
    "Verif.Reg.Props.C39_no_weights_raises"
   ],
   "note": "violated by the code: after a set_weights call that raises on a later key, W is stale (C39_rejected_call_is_stale); proved for histories in which rejected calls are rejected on their first key"
  },
  {
   "property": "C40",
   "status": "proved",
   "theorems": [
    "Verif.Reg.Props.C40_value",
    "Verif.Reg.Props.C40_gradient",
    "Verif.Reg.Props.C40_hessian",
    "Verif.Reg.Props.C40_hessian_exact",
    "Verif.Reg.Props.C40_jacobians",
    "Verif.Reg.Props.C40_hessian_linear_mapping",
    "Verif.Reg.Props.C40_vanishes"
   ],
   "note": "units other than radian; weights not negative"
  },
  {
   "property": "C41",
   "status": "partial",
   "theorems": [
    "Verif.Reg.Lp.Props.C41_positive_partial",
    "Verif.Reg.Lp.Props.C41_zero_weights",
    "Verif.Reg.Lp.Props.C41_norm_two",
    "Verif.Reg.Lp.Props.C41_antitone",
    "Verif.Reg.Lp.Props.C41_scaled_bound",
    "Verif.Reg.Lp.Props.C41_scaled_attained",
    "Verif.Reg.Lp.Props.C41_ekblom"
   ],
   "note": "violated by the code: all weights are zero for a zero residual with scaling and a norm below 1 (C41_zero_weights); everything else proved"
  },
  {
   "property": "C42",
   "status": "partial",
   "theorems": [
    "Verif.Reg.Norms.Props.C42_component",
    "Verif.Reg.Norms.Props.C42_success",
    "Verif.Reg.Norms.Props.C42_atomic_partial",
    "Verif.Reg.Norms.Props.C42_history_partial",
    "Verif.Reg.Norms.Props.C42_component_edit_lost",
    "Verif.Reg.Norms.Props.C42_list_edit_lost"
   ],
   "note": "violated by the code after a component norm or the list given earlier was changed (C42_component_edit_lost, C42_list_edit_lost); proved when norms are only assigned through norms"
  },
  {
   "property": "C43",
   "status": "proved",
   "theorems": [
    "Verif.Reg.Alphas.Props.C43_length_scale",
    "Verif.Reg.Alphas.Props.C43_negative_length_scale",
    "Verif.Reg.Alphas.Props.C43_alpha",
    "Verif.Reg.Alphas.Props.C43_nonneg",
    "Verif.Reg.Alphas.Props.C43_objective",
    "Verif.Reg.Alphas.Props.C43_constructor"
   ],
   "note": "negative length scales are accepted (C43_negative_length_scale); NaN not modelled"
  },
  {
   "property": "C44",
   "status": "proved",
   "theorems": [
    "Verif.Utils.Angles.Props.C44_coterminal"
   ],
   "note": "real arithmetic"
  },
  {
   "property": "C45",
   "status": "partial",
   "theorems": [
    "Verif.Utils.Probing.Props.C45_row_sums",
    "Verif.Utils.Probing.Props.C45_exact",
    "Verif.Utils.Probing.Props.C45_not_exact",
    "Verif.Utils.Probing.Props.C45_diagonal_matrix",
    "Verif.Utils.Probing.Props.C45_default_raises"
   ],
   "note": "exact for the stated pattern and not otherwise; with the default k the function raises (C45_default_raises), against its signature"
  },
  {
   "property": "C46",
   "status": "partial",
   "theorems": [
    "Verif.Utils.Bounds.Props.C46_wiener",
    "Verif.Utils.Bounds.Props.C46_hs_within_wiener",
    "Verif.Utils.Bounds.Props.C46_hs_swapped"
   ],
   "note": "violated by the code: the two Hashin-Shtrikman bounds are returned in the wrong order (C46_hs_swapped); everything else proved"
  },
  {
   "property": "C47",
   "status": "partial",
   "theorems": [
    "Verif.Flow.Richards.Props.C47_adjoint",
    "Verif.Flow.Richards.Props.C47_length",
    "Verif.Flow.Richards.Props.C47_jtvec_needs_fields",
    "Verif.Flow.Richards.Props.C47_full"
   ],
   "note": "violated by the code: Jtvec without fields raises (C47_jtvec_needs_fields); adjointness, lengths and agreement with Jfull proved for exact solvers"
  },
  {
   "property": "C48",
   "status": "proved",
   "theorems": [
    "Verif.Utils.Blocks.Props.C48_indices",
    "Verif.Utils.Blocks.Props.C48_corners_commute",
    "Verif.Utils.Blocks.Props.C48_rejects",
    "Verif.Utils.Blocks.Props.C48_dimension_not_checked",
    "Verif.Utils.Blocks.Props.C48_add_block",
    "Verif.Utils.Blocks.Props.C48_create_block",
    "Verif.Utils.Blocks.Props.C48_sphere"
   ],
   "note": "corners of the dimension of the mesh; corners of a lower dimension may be accepted (C48_dimension_not_checked)"
  },
  {
   "property": "C49",
   "status": "partial",
   "theorems": [
    "Verif.Utils.Validators.Props.C49_integer",
    "Verif.Utils.Validators.Props.C49_integer_truncates",
    "Verif.Utils.Validators.Props.C49_float_partial",
    "Verif.Utils.Validators.Props.C49_float_nan",
    "Verif.Utils.Validators.Props.C49_string",
    "Verif.Utils.Validators.Props.C49_list",
    "Verif.Utils.Validators.Props.C49_active",
    "Verif.Utils.Validators.Props.C49_active_accepts",
    "Verif.Utils.Validators.Props.C49_shape",
    "Verif.Utils.Validators.Props.C49_direction"
   ],
   "note": "violated by the code: NaN passes validate_float (C49_float_nan), non-integers are truncated (C49_integer_truncates); everything else proved"
  },
  {
   "property": "C50",
   "status": "partial",
   "theorems": [
    "Verif.Optim.Newton.Props.C50_root_partial",
    "Verif.Optim.Newton.Props.C50_one_step_too_many"
   ],
   "note": "one more step than maxIter is made (C50_one_step_too_many); everything else proved with bound maxIter + 1"
  },
  {
   "property": "C51",
   "status": "partial",
   "theorems": [
    "Verif.Maps.Props.C51_sum_value",
    "Verif.Maps.Props.C51_sum_deriv_partial",
    "Verif.Maps.Props.C51_two_members",
    "Verif.Maps.Props.C51_identity_first_corrupts"
   ],
   "note": "violated when the first member returns its argument itself (C51_identity_first_corrupts); proved otherwise"
  },
  {
   "property": "C52",
   "status": "proved",
   "theorems": [
    "Verif.Maps.Surject.Props.C52_full",
    "Verif.Maps.Surject.Props.C52_vertical",
    "Verif.Maps.Surject.Props.C52_vertical_deriv",
    "Verif.Maps.Surject.Props.C52_2Dto3D",
    "Verif.Maps.Surject.Props.C52_2Dto3D_deriv",
    "Verif.Maps.Surject.Props.C52_units",
    "Verif.Maps.Surject.Props.C52_units_linear"
   ],
   "note": ""
  },
  {
   "property": "C53",
   "status": "proved",
   "theorems": [
    "Verif.HasModel.Setter.Props.C53_success",
    "Verif.HasModel.Setter.Props.C53_accepted_iff",
    "Verif.HasModel.Setter.Props.C53_failure_restores"
   ],
   "note": ""
  },
  {
   "property": "C54",
   "status": "proved",
   "theorems": [
    "Verif.Optim.GNCG.Props.C54_cg_bounded",
    "Verif.Optim.GNCG.Props.C54_denominators_positive",
    "Verif.Optim.GNCG.Props.C54_direction",
    "Verif.Optim.GNCG.Props.C54_coupled_preconditioner_ascends"
   ],
   "note": "for preconditioners that do not couple active and free cells (every diagonal one); otherwise false (C54_coupled_preconditioner_ascends)"
  },
  {
   "property": "C55",
   "status": "partial",
   "theorems": [
    "Verif.Meta.ChunkLayout.Props.C55_parallel_sum_partial",
    "Verif.Meta.ChunkLayout.Props.C55_sum_is_wrong"
   ],
   "note": "violated by the code with fewer processes than simulations (C55_sum_is_wrong)"
  },
  {
   "property": "C56",
   "status": "partial",
   "theorems": [
    "Verif.Directives.Props.C56_norms_survive_partial",
    "Verif.Directives.Props.C56_norms_lost",
    "Verif.Directives.Props.C56_cooling_lost",
    "Verif.Directives.Props.C56_weights_kept"
   ],
   "note": "violated by the code: norms are lost if IRLS had not started (C56_norms_lost), the cooling factor if it had (C56_cooling_lost), and the IRLS weights of the first run stay (C56_weights_kept)"
  },
  {
   "property": "C57",
   "status": "partial",
   "theorems": [
    "Verif.Utils.Blocks.Props.C57_layers",
    "Verif.Utils.Blocks.Props.C57_ascending_values_swapped",
    "Verif.Utils.Blocks.Props.C57_two_layer_upside_down"
   ],
   "note": "violated by the code: tops and values are sorted independently (C57_ascending_values_swapped), the two-layer model is upside down (C57_two_layer_upside_down); proved for tops in descending order"
  },
  {
   "property": "C58",
   "status": "partial",
   "theorems": [
    "Verif.Maps.EffectiveMedium.Aligned.Props.C58_aligned_tensor",
    "Verif.Maps.EffectiveMedium.Aligned.Props.C58_aligned_iteration",
    "Verif.Maps.EffectiveMedium.Aligned.Props.C58_aligned_terminates",
    "Verif.Maps.EffectiveMedium.Aligned.Props.C58_aligned_between",
    "Verif.Maps.EffectiveMedium.Aligned.Props.C58_aligned_accuracy",
    "Verif.Maps.EffectiveMedium.Aligned.Props.C58_aligned_violated_orientation",
    "Verif.Maps.EffectiveMedium.Aligned.Props.C58_aligned_violated_tilt",
    "Verif.Maps.EffectiveMedium.Aligned.Props.C58_aligned_violated_cells",
    "Verif.Maps.EffectiveMedium.Props.C58_closer",
    "Verif.Maps.EffectiveMedium.Props.C58_iteration",
    "Verif.Maps.EffectiveMedium.Props.C58_terminates",
    "Verif.Maps.EffectiveMedium.Props.C58_accuracy",
    "Verif.Maps.EffectiveMedium.Props.C58_shape_factor",
    "Verif.Maps.EffectiveMedium.Props.C58_between",
    "Verif.Maps.EffectiveMedium.Props.C58_unique",
    "Verif.Maps.EffectiveMedium.Props.C58_exists",
    "Verif.Maps.EffectiveMedium.Props.C58_inverse",
    "Verif.Maps.EffectiveMedium.Props.C58_getdR",
    "Verif.Maps.EffectiveMedium.Props.C58_deriv",
    "Verif.Maps.EffectiveMedium.Props.C58_converged_partial",
    "Verif.Maps.EffectiveMedium.Props.C58_history",
    "Verif.Maps.EffectiveMedium.Props.C58_tolerance_stale",
    "Verif.Maps.EffectiveMedium.Props.C58_out_of_range"
   ],
   "note": "violated by the code: results depend on earlier calls (C58_history), the tolerance on earlier settings (C58_tolerance_stale), fractions outside [0,1] spread (C58_out_of_range), aligned inclusions count through the diagonal of their tensor only (C58_aligned_violated_*), three cells share one tensor; bounds, uniqueness, existence, convergence of the iteration from every start, termination for every tolerance proved for both orientations, accuracy for small tolerances, inverse and derivative for random orientation"
  },
  {
   "property": "C59",
   "status": "partial",
   "theorems": [
    "Verif.Utils.Angles.Props.C59_there_and_back",
    "Verif.Utils.Angles.Props.C59_back_and_there",
    "Verif.Utils.Angles.Props.C59_dip_azimuth"
   ],
   "note": "exact up to the 1e-8 the code adds to the amplitude; at the poles and for zero amplitude the azimuth is not recovered"
  },
  {
   "property": "C60",
   "status": "partial",
   "theorems": [
    "Verif.Flow.Richards.Props.C60_blocks",
    "Verif.Flow.Richards.Props.C60_newton",
    "Verif.Flow.Richards.Props.C60_heads",
    "Verif.Flow.Richards.Props.C60_data",
    "Verif.Flow.Richards.Props.C60_head_method_wrong"
   ],
   "note": "violated by the code for method=\"head\" (C60_head_method_wrong); proved for method=\"mixed\" with heads that solve the equations and depend differentiably on the model"
  },
  {
   "property": "C61",
   "status": "proved",
   "theorems": [
    "Verif.Flow.Empirical.Props.C61_haverkamp_theta",
    "Verif.Flow.Empirical.Props.C61_haverkamp_k",
    "Verif.Flow.Empirical.Props.C61_vangenuchten_theta",
    "Verif.Flow.Empirical.Props.C61_vangenuchten_k",
    "Verif.Flow.Empirical.Props.C61_haverkamp_exact",
    "Verif.Flow.Empirical.Props.C61_vangenuchten_exact"
   ],
   "note": "nonzero heads; real arithmetic"
  },
  {
   "property": "C62",
   "status": "proved",
   "theorems": [
    "Verif.Flow.Empirical.Props.C62_haverkamp_theta",
    "Verif.Flow.Empirical.Props.C62_haverkamp_k",
    "Verif.Flow.Empirical.Props.C62_vangenuchten_theta",
    "Verif.Flow.Empirical.Props.C62_vangenuchten_k",
    "Verif.Flow.Empirical.Props.C62_saturated",
    "Verif.Flow.Empirical.Props.C62_haverkamp_monotone"
   ],
   "note": "real arithmetic; monotonicity for Haverkamp only"
  },
  {
   "property": "C63",
   "status": "partial",
   "theorems": [
    "Verif.DC.Props.C63_nodal",
    "Verif.DC.Props.C63_cell",
    "Verif.DC.Props.C63_neumann_pole_wrong"
   ],
   "note": "violated by the code for single potential electrodes with Neumann boundaries (C63_neumann_pole_wrong); proved for all other cases, with exact solvers"
  },
  {
   "property": "C64",
   "status": "partial",
   "theorems": [
    "Verif.DC.Props.C64_nodal",
    "Verif.DC.Props.C64_cell",
    "Verif.DC.Props.C64_neumann_pole_wrong"
   ],
   "note": "violated by the code for single potential electrodes with Neumann boundaries (C64_neumann_pole_wrong); proved for all other cases, with exact solvers and symmetric inner products"
  },
  {
   "property": "C65",
   "status": "partial",
   "theorems": [
    "Verif.DC.Mini.Props.C65_data",
    "Verif.DC.Mini.Props.C65_adjoint",
    "Verif.DC.Mini.Props.C65_no_duplicates",
    "Verif.DC.Mini.Props.C65_current_ignored",
    "Verif.DC.Mini.Props.C65_apparent_resistivity_ignored",
    "Verif.DC.Mini.Props.C65_degenerate_dipole",
    "Verif.DC.Mini.Props.C65_needs_reciprocity"
   ],
   "note": "violated by the code: currents (C65_current_ignored), apparent resistivities (C65_apparent_resistivity_ignored) and coinciding dipole electrodes (C65_degenerate_dipole) are mishandled; proved for unit currents and voltages when pole-pole potentials are reciprocal"
  },
  {
   "property": "C66",
   "status": "partial",
   "theorems": [
    "Verif.DC.Cache.Props.C66_history_partial",
    "Verif.DC.Cache.Props.C66_survey_stale",
    "Verif.DC.Cache.Props.C66_map_stale",
    "Verif.DC.Cache.Props.C66_fields_not_enough",
    "Verif.DC.Cache.Props.C66_diagonal_stale",
    "Verif.DC.Cache.Props.C66_diagonal_wrong",
    "Verif.DC.Cache.Props.C66_mini_restores",
    "Verif.DC.Cache.Props.C66_mini_not_restored"
   ],
   "note": "violated by the code after replacing survey or map, for fields of an earlier model and for getJtJdiag; proved for all other histories (C66_history_partial)"
  },
  {
   "property": "C67",
   "status": "partial",
   "theorems": [
    "Verif.PDE.Props.C67_derivative",
    "Verif.PDE.Props.C67_many",
    "Verif.PDE.Props.C67_adjoint",
    "Verif.PDE.Props.C67_inverse_partial",
    "Verif.PDE.Props.C67_inverse_needs_diagonal",
    "Verif.PDE.Props.C67_node"
   ],
   "note": "violated by the code for the derivative of the inverse of an inner product that is not diagonal (C67_inverse_needs_diagonal); everything else proved"
  },
  {
   "property": "C68",
   "status": "partial",
   "theorems": [
    "Verif.FDEM.Props.C68_electric_field",
    "Verif.FDEM.Props.C68_magnetic_flux_density",
    "Verif.FDEM.Props.C68_current_density",
    "Verif.FDEM.Props.C68_magnetic_field",
    "Verif.FDEM.Props.C68_sources_EB",
    "Verif.FDEM.Props.C68_sources_HJ_partial",
    "Verif.FDEM.Props.C68_violated_shared_frequency",
    "Verif.FDEM.Props.C68_violated_B_j",
    "Verif.FDEM.Props.C68_violated_E_j",
    "Verif.FDEM.Props.C68_violated_dipole_mu"
   ],
   "note": "violated by the code: permeability maps with several sources per frequency (C68_violated_shared_frequency), current density receivers with a primary electric field (C68_violated_E_j, C68_violated_B_j), dipoles in the HJ formulations with a permeability map (C68_violated_dipole_mu); proved for everything else, without permittivity"
  },
  {
   "property": "C69",
   "status": "partial",
   "theorems": [
    "Verif.FDEM.Props.C69_violated_j",
    "Verif.FDEM.Props.C69_electric_field",
    "Verif.FDEM.Props.C69_magnetic_flux_density",
    "Verif.FDEM.Props.C69_same_data_EB",
    "Verif.FDEM.Props.C69_magnetic_field",
    "Verif.FDEM.Props.C69_current_density",
    "Verif.FDEM.Props.C69_same_data_HJ",
    "Verif.FDEM.Props.C69_reciprocity"
   ],
   "note": "violated by the code for current density receivers with a primary electric field (C69_violated_j); everything else proved, without permittivity"
  },
  {
   "property": "C70",
   "status": "partial",
   "theorems": [
    "Verif.FDEM.Props.C70_groups",
    "Verif.FDEM.Props.C70_visits",
    "Verif.FDEM.Props.C70_data_order",
    "Verif.FDEM.Props.C70_sum",
    "Verif.FDEM.Props.C70_source_list_stale",
    "Verif.FDEM.Props.C70_frequency_stale"
   ],
   "note": "violated by the code after changes of the source list or of a frequency (C70_source_list_stale, C70_frequency_stale); proved for surveys as built"
  },
  {
   "property": "C71",
   "status": "partial",
   "theorems": [
    "Verif.FDEM.Props.C71_magnetic_flux_density",
    "Verif.FDEM.Props.C71_current_density",
    "Verif.FDEM.Props.C71_magnetic_field",
    "Verif.FDEM.Props.C71_electric_field_partial",
    "Verif.FDEM.Props.C71_violated_electric_field"
   ],
   "note": "violated by the code for b, bSecondary and h of the electric field formulation (C71_violated_electric_field); everything else proved"
  },
  {
   "property": "C72",
   "status": "partial",
   "theorems": [
    "Verif.TDEM.Props.C72_violated_threshold",
    "Verif.TDEM.Props.C72_violated_current_density",
    "Verif.TDEM.Props.C72_violated_current_density_last",
    "Verif.TDEM.Props.C72_magnetic_flux_density_partial",
    "Verif.TDEM.Props.C72_unique_magnetic_flux_density_partial",
    "Verif.TDEM.Props.C72_electric_field_partial",
    "Verif.TDEM.Props.C72_unique_electric_field_partial",
    "Verif.TDEM.Props.C72_magnetic_field_partial",
    "Verif.TDEM.Props.C72_unique_magnetic_field_partial",
    "Verif.TDEM.Props.C72_current_density_partial",
    "Verif.TDEM.Props.C72_solvable_electric_field",
    "Verif.TDEM.Props.C72_solvable_dc_electric_field",
    "Verif.TDEM.Props.C72_solvable_magnetic_flux_density",
    "Verif.TDEM.Props.C72_solvable_magnetic_field",
    "Verif.TDEM.Props.C72_solvable_current_density",
    "Verif.TDEM.Props.C72_solvable_dc_current_density"
   ],
   "note": "violated by the code: steps which change by less than dt_threshold are solved with the factors of another step (C72_violated_threshold), the current density simulation divides the source increment by the next step and drops the last one (C72_violated_current_density, C72_violated_current_density_last); proved otherwise"
  },
  {
   "property": "C73",
   "status": "partial",
   "theorems": [
    "Verif.TDEM.Props.C73_Jvec_violated_last",
    "Verif.TDEM.Props.C73_Jtvec_violated_galvanic",
    "Verif.TDEM.Props.C73_Jtvec_violated_single",
    "Verif.TDEM.Props.C73_Jtvec_violated_initial",
    "Verif.TDEM.Props.C73_Jvec_electric_field_partial",
    "Verif.TDEM.Props.C73_Jtvec_electric_field_partial",
    "Verif.TDEM.Props.C73_Jvec_magnetic_flux_density_partial",
    "Verif.TDEM.Props.C73_Jtvec_magnetic_flux_density_partial",
    "Verif.TDEM.Props.C73_Jvec_magnetic_field_partial",
    "Verif.TDEM.Props.C73_Jtvec_magnetic_field_partial",
    "Verif.TDEM.Props.C73_Jvec_current_density_partial",
    "Verif.TDEM.Props.C73_Jtvec_current_density_partial"
   ],
   "note": "violated by the code: Jvec with receivers at the last time (C73_Jvec_violated_last), Jtvec for grounded sources (C73_Jtvec_violated_galvanic, C73_Jtvec_violated_single, C73_Jtvec_violated_initial); everything else proved, with exact solvers"
  },
  {
   "property": "C74",
   "status": "partial",
   "theorems": [
    "Verif.TDEM.Props.C74_violated_HJ",
    "Verif.TDEM.Props.C74_same_fields_EB_partial",
    "Verif.TDEM.Props.C74_same_fields_HJ_partial"
   ],
   "note": "violated by the code for the current density simulation where the time step changes (C74_violated_HJ); the other cases proved"
  },
  {
   "property": "C75",
   "status": "partial",
   "theorems": [
    "Verif.TDEM.Props.C75_charge_electric_field_partial",
    "Verif.TDEM.Props.C75_start_electric_field",
    "Verif.TDEM.Props.C75_flux_magnetic_flux_density_partial",
    "Verif.TDEM.Props.C75_charge_magnetic_field",
    "Verif.TDEM.Props.C75_charge_current_density_partial",
    "Verif.TDEM.Props.C75_start_current_density",
    "Verif.TDEM.Props.C75_start_magnetic_field"
   ],
   "note": "violated by the code for steps which change by less than dt_threshold (C76_violated_threshold); the current density simulation conserves charge only for sources that are steady where the time step changes and at the end"
  },
  {
   "property": "C76",
   "status": "partial",
   "theorems": [
    "Verif.TDEM.Props.C76_violated_threshold",
    "Verif.TDEM.Props.C76_magnetic_flux_density_partial",
    "Verif.TDEM.Props.C76_electric_field_partial",
    "Verif.TDEM.Props.C76_magnetic_field_partial",
    "Verif.TDEM.Props.C76_current_density_partial"
   ],
   "note": "violated by the code for steps which change by less than dt_threshold (C76_violated_threshold); proved for all other step lists"
  },
  {
   "property": "C77",
   "status": "partial",
   "theorems": [
    "Verif.TDEM.Waveforms.Props.C77_piecewise_nodes",
    "Verif.TDEM.Waveforms.Props.C77_piecewise_line",
    "Verif.TDEM.Waveforms.Props.C77_deriv_piecewise",
    "Verif.TDEM.Waveforms.Props.C77_charge_piecewise",
    "Verif.TDEM.Waveforms.Props.C77_piecewise_initial",
    "Verif.TDEM.Waveforms.Props.C77_step_off_partial",
    "Verif.TDEM.Waveforms.Props.C77_violated_step_off",
    "Verif.TDEM.Waveforms.Props.C77_deriv_ramp_off_partial",
    "Verif.TDEM.Waveforms.Props.C77_violated_ramp_off",
    "Verif.TDEM.Waveforms.Props.C77_charge_ramp_off_partial",
    "Verif.TDEM.Waveforms.Props.C77_ramp_off",
    "Verif.TDEM.Waveforms.Props.C77_deriv_vtem_partial",
    "Verif.TDEM.Waveforms.Props.C77_violated_vtem",
    "Verif.TDEM.Waveforms.Props.C77_vtem_partial",
    "Verif.TDEM.Waveforms.Props.C77_deriv_trapezoid",
    "Verif.TDEM.Waveforms.Props.C77_charge_trapezoid",
    "Verif.TDEM.Waveforms.Props.C77_trapezoid",
    "Verif.TDEM.Waveforms.Props.C77_off_time_trapezoid_partial",
    "Verif.TDEM.Waveforms.Props.C77_triangular",
    "Verif.TDEM.Waveforms.Props.C77_violated_off_time",
    "Verif.TDEM.Waveforms.Props.C77_violated_triangular",
    "Verif.TDEM.Waveforms.Props.C77_violated_overlap",
    "Verif.TDEM.Waveforms.Props.C77_deriv_quarter_sine",
    "Verif.TDEM.Waveforms.Props.C77_charge_quarter_sine",
    "Verif.TDEM.Waveforms.Props.C77_quarter_sine",
    "Verif.TDEM.Waveforms.Props.C77_deriv_half_sine",
    "Verif.TDEM.Waveforms.Props.C77_charge_half_sine",
    "Verif.TDEM.Waveforms.Props.C77_half_sine",
    "Verif.TDEM.Waveforms.Props.C77_deriv_exponential",
    "Verif.TDEM.Waveforms.Props.C77_exponential",
    "Verif.TDEM.Waveforms.Props.C77_charge_exponential_partial"
   ],
   "note": "violated by the code: a step waveform switched off before time zero is on again at time zero (C77_violated_step_off), a ramp with positive epsilon jumps (C77_violated_ramp_off), VTEM is negative before time zero while its derivative is zero (C77_violated_vtem), off_time of trapezoids and triangles is not used (C77_violated_off_time, C77_violated_triangular), overlapping ramps are accepted (C77_violated_overlap); proved otherwise. RawWaveform is the function of the user and not modelled"
  },
  {
   "property": "C78",
   "status": "partial",
   "theorems": [
    "Verif.TDEM.Props.C78_set_current",
    "Verif.TDEM.Props.C78_proportional_electric_field",
    "Verif.TDEM.Props.C78_proportional_magnetic_flux_density",
    "Verif.TDEM.Props.C78_proportional_magnetic_field_partial",
    "Verif.TDEM.Props.C78_violated_proportional",
    "Verif.TDEM.Props.C78_proportional_current_density",
    "Verif.TDEM.Props.C78_static_electric_field_partial",
    "Verif.TDEM.Props.C78_charge_electric_field_partial",
    "Verif.TDEM.Props.C78_equilibrium_electric_field_partial",
    "Verif.TDEM.Props.C78_static_current_density_partial",
    "Verif.TDEM.Props.C78_static_magnetic_field_partial",
    "Verif.TDEM.Props.C78_follows_dipole_partial",
    "Verif.TDEM.Props.C78_violated_dipole_single",
    "Verif.TDEM.Props.C78_start_dipole",
    "Verif.TDEM.Props.C78_static_dipole_partial",
    "Verif.TDEM.Props.C78_violated_dipole_late",
    "Verif.TDEM.Props.C78_start_dipole_HJ",
    "Verif.TDEM.Props.C78_violated_initial_current",
    "Verif.TDEM.Props.C78_violated_time_zero"
   ],
   "note": "violated by the code: the boundary part of the initial field of closed wires in the magnetic field formulation is not multiplied by the current (C78_violated_proportional), dipoles with initial fields need two steps (C78_violated_dipole_single) and ignore the waveform below time_steps[1] (C78_violated_dipole_late), the initial fields assume a unit waveform (C78_violated_initial_current) and use time zero (C78_violated_time_zero); proved otherwise"
  },
  {
   "property": "C79",
   "status": "partial",
   "theorems": [
    "Verif.EM.SourceCache.Props.C79_line_current_partial",
    "Verif.EM.SourceCache.Props.C79_line_set_current",
    "Verif.EM.SourceCache.Props.C79_violated_line_current",
    "Verif.EM.SourceCache.Props.C79_dipole_partial",
    "Verif.EM.SourceCache.Props.C79_violated_dipole",
    "Verif.EM.SourceCache.Props.C79_violated_dipole_initial",
    "Verif.EM.SourceCache.Props.C79_dipole_frequency",
    "Verif.EM.SourceCache.Props.C79_dipole_primary_partial",
    "Verif.EM.SourceCache.Props.C79_violated_dipole_primary",
    "Verif.EM.SourceCache.Props.C79_loop_partial",
    "Verif.EM.SourceCache.Props.C79_violated_loop",
    "Verif.EM.SourceCache.Props.C79_line_assign",
    "Verif.EM.SourceCache.Props.C79_dipole_assign",
    "Verif.EM.SourceCache.Props.C79_loop_assign"
   ],
   "note": "violated by the code: wires keep the first mesh and path (C79_violated_line_current), time domain dipoles and loops their first attributes (C79_violated_dipole, C79_violated_dipole_initial, C79_violated_loop), 1D primary fields their first value (C79_violated_dipole_primary); frequency domain dipoles and the current of a wire are right after every history"
  },
  {
   "property": "C80",
   "status": "partial",
   "theorems": [
    "Verif.Reg.CrossGrad.C80_value",
    "Verif.Reg.CrossGrad.C80_nonneg",
    "Verif.Reg.CrossGrad.C80_parallel",
    "Verif.Reg.CrossGrad.C80_gradient",
    "Verif.Reg.CrossGrad.C80_hessian_product",
    "Verif.Reg.CrossGrad.C80_hessian",
    "Verif.Reg.CrossGrad.C80_hessian_symmetric",
    "Verif.Reg.CrossGrad.C80_approximation_psd",
    "Verif.Reg.CrossGrad.C80_bounds_cross2",
    "Verif.Reg.CrossGrad.C80_bounds_cross3",
    "Verif.Reg.CrossGrad.C80_normalize",
    "Verif.Reg.CrossGrad.C80_normalized_cross",
    "Verif.Reg.CrossGrad.C80_violated_weights",
    "Verif.Reg.CrossGrad.C80_violated_magnitude",
    "Verif.Reg.CrossGrad.C80_not_convex"
   ],
   "note": "violated by the code: registered weights are ignored (C80_violated_weights) and the two dimensional magnitude is signed (C80_violated_magnitude); everything else proved. The default Hessian is an approximation (C80_approximation_psd), the exact one is not convex (C80_not_convex)"
  },
  {
   "property": "C81",
   "status": "partial",
   "theorems": [
    "Verif.Reg.Joint.C81_value",
    "Verif.Reg.Joint.C81_gradient",
    "Verif.Reg.Joint.C81_lower_bound",
    "Verif.Reg.Joint.C81_hessian_product",
    "Verif.Reg.Joint.C81_hessian",
    "Verif.Reg.Joint.C81_hessian_symmetric",
    "Verif.Reg.Joint.C81_hessian_psd",
    "Verif.Reg.Joint.C81_defined",
    "Verif.Reg.Joint.C81_violated_eps",
    "Verif.Reg.Joint.C81_wires"
   ],
   "note": "violated by the code for eps = 0, which is accepted (C81_violated_eps); proved for positive eps, volumes and non negative weights"
  },
  {
   "property": "C82",
   "status": "partial",
   "theorems": [
    "Verif.Reg.Joint.C82_value",
    "Verif.Reg.Joint.C82_zero",
    "Verif.Reg.Joint.C82_gradient",
    "Verif.Reg.Joint.C82_hessian_product",
    "Verif.Reg.Joint.C82_hessian",
    "Verif.Reg.Joint.C82_hessian_psd",
    "Verif.Reg.Joint.C82_wires_partial",
    "Verif.Reg.Joint.C82_violated_size"
   ],
   "note": "violated by the code: the size of the wires is not compared with the mesh (C82_violated_size); everything else proved"
  },
  {
   "property": "C83",
   "status": "partial",
   "theorems": [
    "Verif.Reg.Full.Props.C83_tensor",
    "Verif.Reg.Full.Props.C83_rows",
    "Verif.Reg.Full.Props.C83_value",
    "Verif.Reg.Full.Props.C83_nonneg",
    "Verif.Reg.Full.Props.C83_constant",
    "Verif.Reg.Full.Props.C83_boundary",
    "Verif.Reg.Full.Props.C83_gradient",
    "Verif.Reg.Full.Props.C83_hessian_product",
    "Verif.Reg.Full.Props.C83_hessian_partial",
    "Verif.Reg.Full.Props.C83_hessian_psd",
    "Verif.Reg.Full.Props.C83_violated_active_dirs",
    "Verif.Reg.Full.Props.C83_active_dirs_unchecked",
    "Verif.Reg.Full.Props.C83_violated_documented_example"
   ],
   "note": "violated by the code: directions per active cell are refused by the orthogonality check (C83_violated_active_dirs), as is the documented example (C83_violated_documented_example); the Hessian is that of the value for linear mappings"
  },
  {
   "property": "C84",
   "status": "partial",
   "theorems": [
    "Verif.Reg.Vector.Props.C84_cross_weights",
    "Verif.Reg.Vector.Props.C84_cross2_value",
    "Verif.Reg.Vector.Props.C84_cross3_value",
    "Verif.Reg.Vector.Props.C84_cross3_parallel",
    "Verif.Reg.Vector.Props.C84_cross_gradient",
    "Verif.Reg.Vector.Props.C84_violated_geometric_mean",
    "Verif.Reg.Vector.Props.C84_amplitude_value",
    "Verif.Reg.Vector.Props.C84_amplitude_nonneg",
    "Verif.Reg.Vector.Props.C84_amplitude_rotation",
    "Verif.Reg.Vector.Props.C84_amplitude_gradient_partial",
    "Verif.Reg.Vector.Props.C84_amplitude_hessian",
    "Verif.Reg.Vector.Props.C84_amplitude_hessian_partial",
    "Verif.Reg.Vector.Props.C84_violated_gradient",
    "Verif.Reg.Vector.Props.C84_violated_amplitude_smoothness",
    "Verif.Reg.Vector.Props.C84_amplitude_smoothness_bound",
    "Verif.Reg.Vector.Props.C84_amplitude_constant",
    "Verif.Reg.Vector.Props.C84_amplitude_weights_partial",
    "Verif.Reg.Vector.Props.C84_violated_ignored_weights",
    "Verif.Reg.Vector.Props.C84_smooth_weights_partial",
    "Verif.Reg.Vector.Props.C84_violated_smooth_weights",
    "Verif.Reg.Vector.Props.C84_ref_dir",
    "Verif.Reg.Vector.Props.C84_violated_ref_shape"
   ],
   "note": "violated by the code: component weights do not enter by their geometric mean (C84_violated_geometric_mean), are ignored or raise for shape (nC, n) (C84_violated_ignored_weights, C84_violated_smooth_weights), the amplitude gradient is wrong for nonlinear mappings (C84_violated_gradient), smoothness of amplitudes is that of the vectors (C84_violated_amplitude_smoothness), reference directions of the documented shape are refused (C84_violated_ref_shape); proved otherwise"
  },
  {
   "property": "C85",
   "status": "partial",
   "theorems": [
    "Verif.Reg.RegMesh.Props.C85_faces",
    "Verif.Reg.RegMesh.Props.C85_gradient",
    "Verif.Reg.RegMesh.Props.C85_gradient_zero",
    "Verif.Reg.RegMesh.Props.C85_cells_to_faces",
    "Verif.Reg.RegMesh.Props.C85_faces_to_cells_partial",
    "Verif.Reg.RegMesh.Props.C85_distances",
    "Verif.Reg.RegMesh.Props.C85_violated_average",
    "Verif.Reg.RegMesh.Props.C85_tree_faces",
    "Verif.Reg.RegMesh.Props.C85_tree_averages",
    "Verif.Reg.RegMesh.Props.C85_memory_partial",
    "Verif.Reg.RegMesh.Props.C85_once",
    "Verif.Reg.RegMesh.Props.C85_violated_alias",
    "Verif.Reg.RegMesh.Props.C85_violated_indices"
   ],
   "note": "violated by the code: on tensor meshes averages from faces to cells do not preserve constants at the edge of the active cells (C85_violated_average), the array of active cells is kept without a copy (C85_violated_alias), indices equal to those in force are refused and on two cells others are accepted (C85_violated_indices); proved otherwise"
  },
  {
   "property": "C86",
   "status": "proved",
   "theorems": [
    "Verif.Reg.Radian.Props.C86_kernel",
    "Verif.Reg.Radian.Props.C86_shortest",
    "Verif.Reg.Radian.Props.C86_periodic",
    "Verif.Reg.Radian.Props.C86_le",
    "Verif.Reg.Radian.Props.C86_gradient",
    "Verif.Reg.Radian.Props.C86_opposite"
   ],
   "note": "on tensor meshes; the gradient away from opposite directions, where the value has a corner"
  },
  {
   "property": "C87",
   "status": "partial",
   "theorems": [
    "Verif.PF.Props.C87_forward",
    "Verif.PF.Props.C87_matrix",
    "Verif.PF.Props.C87_modes",
    "Verif.PF.Props.C87_transpose",
    "Verif.PF.Props.C87_adjoint",
    "Verif.PF.Props.C87_diagonal_single_partial",
    "Verif.PF.Props.C87_diagonal_equal_partial",
    "Verif.PF.Props.C87_violated_diagonal",
    "Verif.PF.Props.C87_violated_receivers"
   ],
   "note": "violated by the code: the forward-only diagonal of choclo uses the weights of the first data of a receiver for every component (C87_violated_diagonal) and of the first receiver for every receiver (C87_violated_receivers); everything else proved"
  },
  {
   "property": "C88",
   "status": "partial",
   "theorems": [
    "Verif.PF.Kernel.Props.C88_unique",
    "Verif.PF.Kernel.Props.C88_inverse",
    "Verif.PF.Kernel.Props.C88_corners",
    "Verif.PF.Kernel.Props.C88_cell",
    "Verif.PF.Kernel.Props.C88_homogeneous",
    "Verif.PF.Kernel.Props.C88_integral",
    "Verif.PF.Kernel.Props.C88_components",
    "Verif.PF.Kernel.Props.C88_scalar_partial",
    "Verif.PF.Kernel.Props.C88_vector_partial",
    "Verif.PF.Kernel.Props.C88_gravity",
    "Verif.PF.Kernel.Props.C88_guv",
    "Verif.PF.Kernel.Props.C88_violated_magnetization",
    "Verif.PF.Kernel.Props.C88_violated_amplitude"
   ],
   "note": "violated by the code: a magnetization assigned by the user is ignored by choclo (C88_violated_magnetization), and for a negative amplitude the engines disagree (C88_violated_amplitude); everything else proved. The kernels of geoana and choclo are arbitrary functions related by what their names say"
  },
  {
   "property": "C89",
   "status": "partial",
   "theorems": [
    "Verif.PF.Sens.Props.C89_jacobian",
    "Verif.PF.Sens.Props.C89_adjoint",
    "Verif.PF.Sens.Props.C89_diagonal_partial",
    "Verif.PF.Sens.Props.C89_violated_diagonal",
    "Verif.PF.Sens.Props.C89_amplitude",
    "Verif.PF.Sens.Props.C89_amplitude_adjoint",
    "Verif.PF.Sens.Props.C89_amplitude_diagonal_partial",
    "Verif.PF.Sens.Props.C89_violated_amplitude_default"
   ],
   "note": "violated by the code: getJtJdiag drops the products of different cells when a parameter is shared (C89_violated_diagonal) and raises for amplitude data without weights (C89_violated_amplitude_default); proved otherwise"
  },
  {
   "property": "C90",
   "status": "partial",
   "theorems": [
    "Verif.PF.Cache.Props.C90_fixed_partial",
    "Verif.PF.Cache.Props.C90_violated_settings",
    "Verif.PF.Cache.Props.C90_violated_direction",
    "Verif.PF.Cache.Props.C90_violated_close_models",
    "Verif.PF.Cache.Props.C90_disk_choclo",
    "Verif.PF.Cache.Props.C90_disk_geoana_partial",
    "Verif.PF.Cache.Props.C90_violated_file"
   ],
   "note": "violated by the code: the matrix and the diagonal survive changes of settings (C90_violated_settings), the direction of the field is remembered by itself (C90_violated_direction), close models share the derivative of amplitudes (C90_violated_close_models), and any file of the right shape is used by geoana (C90_violated_file); proved while settings are fixed"
  },
  {
   "property": "C91",
   "status": "partial",
   "theorems": [
    "Verif.Directives.Props.C91_target_current_partial",
    "Verif.Directives.Props.C91_violated_reuse",
    "Verif.Directives.Props.C91_stop_iff_partial",
    "Verif.Directives.Props.C91_ends_run_partial",
    "Verif.Directives.Props.C91_violated_short_target",
    "Verif.Directives.Props.C91_violated_weights"
   ],
   "note": "violated by the code: targets of an earlier inversion are kept (C91_violated_reuse), a single target tests the first misfit only (C91_violated_short_target), the weights of the clustering part are always ignored (C91_violated_weights); proved otherwise"
  },
  {
   "property": "C92",
   "status": "partial",
   "theorems": [
    "Verif.Directives.Props.C92_rebalance_partial",
    "Verif.Directives.Props.C92_unchanged",
    "Verif.Directives.Props.C92_run",
    "Verif.Directives.Props.C92_order_partial",
    "Verif.Directives.Props.C92_violated_order",
    "Verif.Directives.Props.C92_violated_list",
    "Verif.Directives.Props.C92_violated_no_target"
   ],
   "note": "violated by the code: placed before MultiTargetMisfits it uses the misfits of the iteration before (C92_violated_order), multipliers in a list raise (C92_violated_list), and without MultiTargetMisfits it raises at the end of the first iteration (C92_violated_no_target); proved otherwise"
  },
  {
   "property": "C93",
   "status": "proved",
   "theorems": [
    "Verif.Directives.Props.C93_rayleigh",
    "Verif.Directives.Props.C93_bounds",
    "Verif.Directives.Props.C93_monotone",
    "Verif.Directives.Props.C93_scale",
    "Verif.Directives.Props.C93_accuracy",
    "Verif.Directives.Props.C93_limit"
   ],
   "note": "for symmetric positive semidefinite Hessians; deriv2 is a matrix that does not change during the iteration"
  },
  {
   "property": "C94",
   "status": "partial",
   "theorems": [
    "Verif.Directives.Props.C94_balance",
    "Verif.Directives.Props.C94_scale_free",
    "Verif.Directives.Props.C94_nonneg",
    "Verif.Directives.Props.C94_paired",
    "Verif.Directives.Props.C94_max_derivative_partial",
    "Verif.Directives.Props.C94_violated_zero_model",
    "Verif.Directives.Props.C94_scaling",
    "Verif.Directives.Props.C94_scaling_again",
    "Verif.Directives.Props.C94_violated_iterations",
    "Verif.Directives.Props.C94_alphas_partial",
    "Verif.Directives.Props.C94_violated_alphas_again",
    "Verif.Directives.Props.C94_violated_alphas_single"
   ],
   "note": "violated by the code: division by zero at the zero model (C94_violated_zero_model), n_pw_iter ignored by ScalingMultipleDataMisfits_ByEig (C94_violated_iterations), smoothness multipliers compound when initialized again (C94_violated_alphas_again) and single terms raise (C94_violated_alphas_single); proved otherwise"
  },
  {
   "property": "C95",
   "status": "partial",
   "theorems": [
    "Verif.Directives.Props.C95_near_jacobi_partial",
    "Verif.Directives.Props.C95_positive",
    "Verif.Directives.Props.C95_violated_factor",
    "Verif.Directives.Props.C95_violated_multipliers",
    "Verif.Directives.Props.C95_current_partial",
    "Verif.Directives.Props.C95_violated_order"
   ],
   "note": "violated by the code: the factor two of the data misfit (C95_violated_factor) and the multipliers (C95_violated_multipliers) are missing, and a schedule after the directive leaves an old preconditioner (C95_violated_order); within a factor of two for multipliers of one, symmetric and positive"
  },
  {
   "property": "C96",
   "status": "partial",
   "theorems": [
    "Verif.Directives.Props.C96_default_partial",
    "Verif.Directives.Props.C96_minimum_partial",
    "Verif.Directives.Props.C96_threshold",
    "Verif.Directives.Props.C96_units",
    "Verif.Directives.Props.C96_value",
    "Verif.Directives.Props.C96_percentile",
    "Verif.Directives.Props.C96_violated_no_sensitivity",
    "Verif.Directives.Props.C96_violated_minimum",
    "Verif.Directives.Props.C96_violated_counted_twice",
    "Verif.Directives.Props.C96_assigned"
   ],
   "note": "violated by the code: division by zero without sensitivity (C96_violated_no_sensitivity, C96_violated_minimum), and parameters of several regularizations are counted several times (C96_violated_counted_twice); proved otherwise"
  },
  {
   "property": "C97",
   "status": "partial",
   "theorems": [
    "Verif.Directives.Props.C97_accepted_iff",
    "Verif.Directives.Props.C97_refused_unchanged",
    "Verif.Directives.Props.C97_precond_current_partial",
    "Verif.Directives.Props.C97_beta_current_partial",
    "Verif.Directives.Props.C97_violated_precond_before_beta",
    "Verif.Directives.Props.C97_violated_beta_before_weights",
    "Verif.Directives.Props.C97_refusal_needed",
    "Verif.Directives.Props.C97_violated_spherical"
   ],
   "note": "violated by the code: accepted lists with the preconditioner before the estimator (C97_violated_precond_before_beta), with estimators before weights (C97_violated_beta_before_weights) and with spherical weights after UpdateIRLS (C97_violated_spherical); the set of accepted lists is characterised exactly"
  },
  {
   "property": "C98",
   "status": "partial",
   "theorems": [
    "Verif.Directives.Props.C98_values_partial",
    "Verif.Directives.Props.C98_violated_zero",
    "Verif.Directives.Props.C98_schedule",
    "Verif.Directives.Props.C98_pairs_partial",
    "Verif.Directives.Props.C98_run_partial",
    "Verif.Directives.Props.C98_violated_pairs",
    "Verif.Directives.Props.C98_violated_target",
    "Verif.Directives.Props.C98_stop_iff_partial",
    "Verif.Directives.Props.C98_violated_overfit",
    "Verif.Directives.Props.C98_saved_partial",
    "Verif.Directives.Props.C98_violated_saved",
    "Verif.Directives.Props.C98_violated_load"
   ],
   "note": "violated by the code: functions with multiplier zero shift the values (C98_violated_zero, C98_violated_pairs), targets are kept from the first reading (C98_violated_target), misfits below their target prevent the stop (C98_violated_overfit), saved trade-off parameters are aliased (C98_violated_saved) and files cannot be loaded (C98_violated_load); proved otherwise"
  },
  {
   "property": "C99",
   "status": "partial",
   "theorems": [
    "Verif.Directives.Props.C99_files_in_order_partial",
    "Verif.Directives.Props.C99_models_partial",
    "Verif.Directives.Props.C99_violated_dot",
    "Verif.Directives.Props.C99_columns_partial",
    "Verif.Directives.Props.C99_violated_multiplier",
    "Verif.Directives.Props.C99_violated_load",
    "Verif.Directives.Props.C99_violated_dict"
   ],
   "note": "violated by the code: a name with a dot makes all iterations write one file (C99_violated_dot), outer multipliers are missing from the columns (C99_violated_multiplier), load_results never succeeds (C99_violated_load), the dictionary keeps the last of several sparse regularizations (C99_violated_dict); proved otherwise"
  },
  {
   "property": "C100",
   "status": "partial",
   "theorems": [
    "Verif.NSEM.Props.C100_impedance",
    "Verif.NSEM.Props.C100_tipper",
    "Verif.NSEM.Props.C100_admittance_partial",
    "Verif.NSEM.Props.C100_violated_admittance",
    "Verif.NSEM.Props.C100_polarisation",
    "Verif.NSEM.Props.C100_violated_polarisation",
    "Verif.NSEM.Props.C100_components",
    "Verif.NSEM.Props.C100_halfspace",
    "Verif.NSEM.Props.C100_conductivity",
    "Verif.NSEM.Props.C100_low_partial",
    "Verif.NSEM.Props.C100_violated_locations"
   ],
   "note": "violated by the code: admittance data are not the row of the admittance (C100_violated_admittance) and depend on the polarisations (C100_violated_polarisation), locations_h is ignored in one dimension (C100_violated_locations); proved otherwise"
  },
  {
   "property": "C101",
   "status": "partial",
   "theorems": [
    "Verif.NSEM.Props.C101_impedance",
    "Verif.NSEM.Props.C101_tipper",
    "Verif.NSEM.Props.C101_admittance",
    "Verif.NSEM.Props.C101_conductivity",
    "Verif.NSEM.Props.C101_ratio",
    "Verif.NSEM.Props.C101_impedance_adjoint",
    "Verif.NSEM.Props.C101_tipper_adjoint",
    "Verif.NSEM.Props.C101_admittance_adjoint",
    "Verif.NSEM.Props.C101_conductivity_adjoint",
    "Verif.NSEM.Props.C101_ratio_adjoint",
    "Verif.NSEM.Props.C101_getJ_partial",
    "Verif.NSEM.Props.C101_violated_getJ",
    "Verif.NSEM.Props.C101_violated_diagonal"
   ],
   "note": "violated by the code: the adjoint used by getJ raises for several locations of admittance and apparent conductivity receivers (C101_violated_getJ), xx and yy impedances in one and two dimensions break the products (C101_violated_diagonal); derivatives and adjoints proved"
  },
  {
   "property": "C102",
   "status": "partial",
   "theorems": [
    "Verif.NSEM.Props.C102_fixed_boundary",
    "Verif.NSEM.Props.C102_boundary_fields",
    "Verif.NSEM.Props.C102_maxwell_e",
    "Verif.NSEM.Props.C102_maxwell_h",
    "Verif.NSEM.Props.C102_widths",
    "Verif.NSEM.Props.C102_widths_partial",
    "Verif.NSEM.Props.C102_violated_widths",
    "Verif.NSEM.Props.C102_fresh_partial",
    "Verif.NSEM.Props.C102_violated_stale",
    "Verif.NSEM.Props.C102_direct_partial",
    "Verif.NSEM.Props.C102_violated_direct"
   ],
   "note": "violated by the code: boundary fields are kept when a property is set (C102_violated_stale), the widths on tree meshes are off by the origin (C102_violated_widths), a permeability per cell without a map is used wrongly (C102_violated_direct); Maxwell equations and sensitivities proved"
  },
  {
   "property": "C103",
   "status": "proved",
   "theorems": [
    "Verif.DC.Props.C103_data",
    "Verif.DC.Props.C103_exact",
    "Verif.DC.Props.C103_adjoint",
    "Verif.DC.Props.C103_stored",
    "Verif.DC.Props.C103_cell_exact",
    "Verif.DC.Props.C103_cell_adjoint",
    "Verif.DC.Props.C103_nodal_exact",
    "Verif.DC.Props.C103_nodal_adjoint"
   ],
   "note": "for receivers of potentials; receivers of electric fields or currents cannot be predicted in 2.5D"
  },
  {
   "property": "C104",
   "status": "partial",
   "theorems": [
    "Verif.DC.Props.C104_history_partial",
    "Verif.DC.Props.C104_violated_stale"
   ],
   "note": "violated by the code: the boundary derivative of the nodal simulation is never cleared, so sensitivities after a second model are wrong (C104_violated_stale); proved otherwise (C104_history_partial)"
  },
  {
   "property": "C105",
   "status": "partial",
   "theorems": [
    "Verif.DC.Props.C105_settings_partial",
    "Verif.DC.Props.C105_nodal",
    "Verif.DC.Props.C105_cell_partial",
    "Verif.DC.Props.C105_violated_bc",
    "Verif.DC.Props.C105_violated_surface",
    "Verif.DC.Props.C105_violated_nky"
   ],
   "note": "violated by the code: boundary matrices survive a change of bc_type (C105_violated_bc) and of surface_faces (C105_violated_surface), nky has no effect or makes the prediction raise (C105_violated_nky); proved otherwise"
  },
  {
   "property": "C106",
   "status": "proved",
   "theorems": [
    "Verif.DC.Props.C106_trapezoid",
    "Verif.DC.Props.C106_positive",
    "Verif.DC.Props.C106_least_squares"
   ],
   "note": "the optimised wavenumbers are the output of an arbitrary minimiser; the Bessel function is an arbitrary function"
  },
  {
   "property": "C107",
   "status": "partial",
   "theorems": [
    "Verif.Seismic.C107_cell",
    "Verif.Seismic.C107_ray",
    "Verif.Seismic.C107_travel_times_partial",
    "Verif.Seismic.C107_total_partial",
    "Verif.Seismic.C107_violated_grid_line"
   ],
   "note": "violated by the code: rays along a line between cells are counted in both cells (C107_violated_grid_line); proved for all other rays of positive length"
  },
  {
   "property": "C108",
   "status": "partial",
   "theorems": [
    "Verif.Linear.C108_sensitivity",
    "Verif.Linear.C108_history",
    "Verif.Linear.C108_kernels",
    "Verif.Linear.C108_factors",
    "Verif.Linear.C108_settings_partial",
    "Verif.Linear.C108_violated_settings",
    "Verif.Linear.C108_violated_factors",
    "Verif.Linear.C108_violated_survey"
   ],
   "note": "violated by the code: settings of the kernels changed after the first use (C108_violated_settings) and a new survey of straight rays after a prediction (C108_violated_survey) have no effect; proved otherwise"
  },
  {
   "property": "C109",
   "status": "proved",
   "theorems": [
    "Verif.Linear.C109_times",
    "Verif.Linear.C109_compact",
    "Verif.Linear.C109_increasing"
   ],
   "note": "the widths are unpacked as documented by discretize; changing the array of steps in place is not modelled"
  },
  {
   "property": "C110",
   "status": "partial",
   "theorems": [
    "Verif.Fields.C110_read",
    "Verif.Fields.C110_read_selections",
    "Verif.Fields.C110_write",
    "Verif.Fields.C110_alias_partial",
    "Verif.Fields.C110_violated_lists",
    "Verif.Fields.C110_violated_scalar",
    "Verif.Fields.C110_violated_array"
   ],
   "note": "violated by the code: lists of several sources with lists of several times raise (C110_violated_lists) or store only some entries (C110_violated_scalar), computed fields raise for arrays of times (C110_violated_array); proved otherwise"
  },
  {
   "property": "C111",
   "status": "partial",
   "theorems": [
    "Verif.DC.Props.C111_prediction",
    "Verif.DC.Props.C111_sensitivity",
    "Verif.DC.Props.C111_adjoint",
    "Verif.DC.Props.C111_diagonal",
    "Verif.DC.Props.C111_uniform",
    "Verif.DC.Props.C111_nodal",
    "Verif.DC.Props.C111_cell",
    "Verif.DC.Props.C111_nodal2",
    "Verif.DC.Props.C111_cell2",
    "Verif.DC.Props.C111_scaling_nodal",
    "Verif.DC.Props.C111_scaling_cell",
    "Verif.DC.Props.C111_scaling_nodal2",
    "Verif.DC.Props.C111_scaling_cell2_partial",
    "Verif.DC.Props.C111_uniform_nodal",
    "Verif.DC.Props.C111_uniform_cell",
    "Verif.DC.Props.C111_uniform_nodal2",
    "Verif.DC.Props.C111_uniform_cell2_partial",
    "Verif.DC.Props.C111_violated_map",
    "Verif.DC.Props.C111_violated_jvec",
    "Verif.DC.Props.C111_violated_scaling"
   ],
   "note": "violated by the code: for chargeability maps which are not linear the prediction is the derivative of the map applied to the model (C111_violated_map) and Jvec is not its derivative (C111_violated_jvec); one added to the first diagonal entry breaks the scaling with conductivity of the 2.5D cell centred simulation with Neumann conditions (C111_violated_scaling, hence C111_scaling_cell2_partial and C111_uniform_cell2_partial); proved otherwise"
  },
  {
   "property": "C112",
   "status": "partial",
   "theorems": [
    "Verif.DC.IPCache.Props.C112_history_partial",
    "Verif.DC.IPCache.Props.C112_violated_prediction",
    "Verif.DC.IPCache.Props.C112_violated_sigma",
    "Verif.DC.IPCache.Props.C112_violated_map",
    "Verif.DC.IPCache.Props.C112_violated_diagonal"
   ],
   "note": "violated by the code: dpred with given fields returns the prediction made last (C112_violated_prediction), a new conductivity is mixed with the old fields (C112_violated_sigma), derivatives of maps which are not linear are kept (C112_violated_map) and weights of the first diagonal are kept (C112_violated_diagonal); all other histories proved (C112_history_partial)"
  },
  {
   "property": "C113",
   "status": "partial",
   "theorems": [
    "Verif.DC.Geometry.Props.C113_factors",
    "Verif.DC.Geometry.Props.C113_receivers",
    "Verif.DC.Geometry.Props.C113_exchange",
    "Verif.DC.Geometry.Props.C113_pole_reciprocity",
    "Verif.DC.Geometry.Props.C113_remote",
    "Verif.DC.Geometry.Props.C113_invariance",
    "Verif.DC.Geometry.Props.C113_superposition",
    "Verif.DC.Geometry.Props.C113_from_voltage_partial",
    "Verif.DC.Geometry.Props.C113_violated_current",
    "Verif.DC.Geometry.Props.C113_violated_from_voltage",
    "Verif.DC.Geometry.Props.C113_multipole"
   ],
   "note": "violated by the code: apparent resistivities predicted by receivers are not divided by the current (C113_violated_current); apparent_resistivity_from_voltage adds eps to the factor and takes absolute values (C113_violated_from_voltage), so it is proved with that error (C113_from_voltage_partial); multipoles are refused (C113_multipole); the documented horizontal distance is the distance with elevation"
  },
  {
   "property": "C114",
   "status": "partial",
   "theorems": [
    "Verif.DC.Electrodes.Props.C114_rows",
    "Verif.DC.Electrodes.Props.C114_drape_partial",
    "Verif.DC.Electrodes.Props.C114_violated_empty_source",
    "Verif.DC.Electrodes.Props.C114_violated_multipole",
    "Verif.DC.Electrodes.Props.C114_violated_stale",
    "Verif.DC.Electrodes.Props.C114_history_partial"
   ],
   "note": "violated by the code: sources without receivers and multipoles cannot be draped (C114_violated_empty_source, C114_violated_multipole), a new source list leaves the old arrays (C114_violated_stale); proved otherwise"
  },
  {
   "property": "C115",
   "status": "partial",
   "theorems": [
    "Verif.DC.Electrodes.Props.C115_nodal",
    "Verif.DC.Electrodes.Props.C115_nodal_total",
    "Verif.DC.Electrodes.Props.C115_dipole_total",
    "Verif.DC.Electrodes.Props.C115_broadcast",
    "Verif.DC.Electrodes.Props.C115_cell_partial",
    "Verif.DC.Electrodes.Props.C115_violated_same_cell"
   ],
   "note": "violated by the code: of two electrodes nearest to the same cell only the last current is kept (C115_violated_same_cell); proved otherwise; interpolation matrices are arbitrary"
  },
  {
   "property": "C116",
   "status": "partial",
   "theorems": [
    "Verif.Utils.Topo.Props.C116_topography",
    "Verif.Utils.Topo.Props.C116_columns",
    "Verif.Utils.Topo.Props.C116_shift2_partial",
    "Verif.Utils.Topo.Props.C116_shift3_partial",
    "Verif.Utils.Topo.Props.C116_again",
    "Verif.Utils.Topo.Props.C116_violated_widths"
   ],
   "note": "violated by the code: with different widths the nearest centre is not that of the containing column (C116_violated_widths); proved for equal horizontal widths; tree meshes are not modelled"
  },
  {
   "property": "C117",
   "status": "partial",
   "theorems": [
    "Verif.DC.Lines.Props.C117_data_partial",
    "Verif.DC.Lines.Props.C117_lines_partial",
    "Verif.DC.Lines.Props.C117_distances",
    "Verif.DC.Lines.Props.C117_origin",
    "Verif.DC.Lines.Props.C117_violated_elevation",
    "Verif.DC.Lines.Props.C117_violated_single",
    "Verif.DC.Lines.Props.C117_violated_current",
    "Verif.DC.Lines.Props.C117_violated_across",
    "Verif.DC.Lines.Props.C117_violated_example"
   ],
   "note": "violated by the code: sources at one position but different elevations each get all receivers of the position (C117_violated_elevation), a single position gives no direction (C117_violated_single), currents are dropped (C117_violated_current), dipoles across a line become poles (C117_violated_across); proved for the remaining surveys"
  },
  {
   "property": "C118",
   "status": "proved",
   "theorems": [
    "Verif.DC.SIP.Props.C118_derivatives",
    "Verif.DC.SIP.Props.C118_pulses",
    "Verif.DC.SIP.Props.C118_decay"
   ],
   "note": "for the class of positive times and time constants, where the decay is smooth"
  },
  {
   "property": "C119",
   "status": "partial",
   "theorems": [
    "Verif.DC.SIP.Props.C119_jvec_partial",
    "Verif.DC.SIP.Props.C119_stored",
    "Verif.DC.SIP.Props.C119_stored_adjoint",
    "Verif.DC.SIP.Props.C119_adjoint_reordered",
    "Verif.DC.SIP.Props.C119_adjoint_partial",
    "Verif.DC.SIP.Props.C119_violated_adjoint",
    "Verif.DC.SIP.Props.C119_violated_index",
    "Verif.DC.SIP.Props.C119_violated_times"
   ],
   "note": "violated by the code: predictions are ordered by time and data by receiver, so Jtvec without stored sensitivities is not the adjoint with several receivers (C119_violated_adjoint) and indexing returns other data (C119_violated_index); receivers with different times break Jvec and Jtvec (C119_violated_times); proved otherwise, and for stored sensitivities"
  },
  {
   "property": "C120",
   "status": "partial",
   "theorems": [
    "Verif.DC.SIPState.Props.C120_history_partial",
    "Verif.DC.SIPState.Props.C120_without_fields",
    "Verif.DC.SIPState.Props.C120_after_fields",
    "Verif.DC.SIPState.Props.C120_violated_stored",
    "Verif.DC.SIPState.Props.C120_violated_given"
   ],
   "note": "violated by the code: stored sensitivities mix the properties of the last evaluated model with the derivatives of the current one (C120_violated_stored), fields handed over return predictions of another model (C120_violated_given); proved for all other histories"
  },
  {
   "property": "C121",
   "status": "partial",
   "theorems": [
    "Verif.DC.SIPState.Props.C121_voltages_partial",
    "Verif.DC.SIPState.Props.C121_violated_shared"
   ],
   "note": "violated by the code for receivers shared by sources (C121_violated_shared); proved otherwise for any number of calls"
  },
  {
   "property": "C122",
   "status": "partial",
   "theorems": [
    "Verif.DC.SP.Props.C122_conserved",
    "Verif.DC.SP.Props.C122_divergence_partial",
    "Verif.DC.SP.Props.C122_violated_volumes",
    "Verif.DC.SP.Props.C122_violated_default",
    "Verif.DC.SP.Props.C122_hydraulic_partial",
    "Verif.DC.SP.Props.C122_hydraulic_scale",
    "Verif.DC.SP.Props.C122_violated_sign",
    "Verif.DC.SP.Props.C122_jvec",
    "Verif.DC.SP.Props.C122_adjoint_partial",
    "Verif.DC.SP.Props.C122_violated_neumann"
   ],
   "note": "violated by the code: faces between active cells of different volumes are taken for boundaries (C122_violated_volumes), all cells active differs from the default (C122_violated_default), the hydraulic head map has the opposite sign of its documentation (C122_violated_sign), Jtvec is not the adjoint for Neumann conditions (C122_violated_neumann); proved otherwise"
  },
  {
   "property": "C123",
   "status": "partial",
   "theorems": [
    "Verif.DC.SP.Props.C123_linear_partial",
    "Verif.DC.SP.Props.C123_products",
    "Verif.DC.SP.Props.C123_violated_getJ",
    "Verif.DC.SP.Props.C123_violated_diag"
   ],
   "note": "violated by the code: without storeJ the sensitivity matrix is kept for maps which are not linear (C123_violated_getJ), diagonals are always kept (C123_violated_diag); products are proved fresh for every history"
  },
  {
   "property": "C124",
   "status": "partial",
   "theorems": [
    "Verif.Maps.Parametric.Props.C124_layer",
    "Verif.Maps.Parametric.Props.C124_block1",
    "Verif.Maps.Parametric.Props.C124_block2",
    "Verif.Maps.Parametric.Props.C124_block3",
    "Verif.Maps.Parametric.Props.C124_casing",
    "Verif.Maps.Parametric.Props.C124_blockInLayer2",
    "Verif.Maps.Parametric.Props.C124_blockInLayer3",
    "Verif.Maps.Parametric.Props.C124_circle",
    "Verif.Maps.Parametric.Props.C124_circle_centre",
    "Verif.Maps.Parametric.Props.C124_poly2",
    "Verif.Maps.Parametric.Props.C124_poly3_partial",
    "Verif.Maps.Parametric.Props.C124_violated_poly3",
    "Verif.Maps.Parametric.Props.C124_spline2_partial",
    "Verif.Maps.Parametric.Props.C124_violated_spline2",
    "Verif.Maps.Parametric.Props.C124_violated_spline_first",
    "Verif.Maps.Parametric.Props.C124_violated_spline_stale",
    "Verif.Maps.Parametric.Props.C124_violated_spline3"
   ],
   "note": "violated by the code: the 3D polynomial map orders coefficients differently in map and derivative (C124_violated_poly3), so it is proved if one order is zero (C124_poly3_partial); the spline derivative is zero for the default normal (C124_violated_spline2) and for top nodes in 3D (C124_violated_spline3), raises before the first evaluation and goes stale (C124_violated_spline_first, C124_violated_spline_stale), so C124_spline2_partial; the circle has no derivative at its centre (C124_circle_centre); all other maps proved in one to three dimensions"
  },
  {
   "property": "C125",
   "status": "partial",
   "theorems": [
    "Verif.Maps.Parametric.Props.C125_layer",
    "Verif.Maps.Parametric.Props.C125_ellipsoid",
    "Verif.Maps.Parametric.Props.C125_block3_outside",
    "Verif.Maps.Parametric.Props.C125_block3_inside",
    "Verif.Maps.Parametric.Props.C125_block1",
    "Verif.Maps.Parametric.Props.C125_block2",
    "Verif.Maps.Parametric.Props.C125_blockInLayer3",
    "Verif.Maps.Parametric.Props.C125_blockInLayer2",
    "Verif.Maps.Parametric.Props.C125_casing",
    "Verif.Maps.Parametric.Props.C125_violated_circle",
    "Verif.Maps.Parametric.Props.C125_violated_layer_formula",
    "Verif.Maps.Parametric.Props.C125_poly2",
    "Verif.Maps.Parametric.Props.C125_poly3"
   ],
   "note": "violated by the code: the documented background and circle values of ParametricCircleMap are exchanged (C125_violated_circle), the documented formula of the layer is a difference, the code a product (C125_violated_layer_formula); limits proved for the other maps; no limit is stated for splines"
  },
  {
   "property": "C126",
   "status": "proved",
   "theorems": [
    "Verif.Maps.Parametric.Props.C126_layer",
    "Verif.Maps.Parametric.Props.C126_block",
    "Verif.Maps.Parametric.Props.C126_blockInLayer",
    "Verif.Maps.Parametric.Props.C126_casing",
    "Verif.Maps.Parametric.Props.C126_circle",
    "Verif.Maps.Parametric.Props.C126_interface",
    "Verif.Maps.Parametric.Props.C126_poly_spline"
   ],
   "note": "splines as arbitrary interfaces"
  },
  {
   "property": "C127",
   "status": "partial",
   "theorems": [
    "Verif.Maps.Parametric.Props.C127_partial",
    "Verif.Maps.Parametric.Props.C127_poly",
    "Verif.Maps.Parametric.Props.C127_violated",
    "Verif.Maps.Parametric.Props.C127_violated_mixed"
   ],
   "note": "violated by the code: coordinates are kept when active cells change (C127_violated), and may belong to different cells (C127_violated_mixed); proved if active cells are set before the first evaluation (C127_partial), and for the polynomial map, which reads them each time (C127_poly)"
  },
  {
   "property": "C128",
   "status": "partial",
   "theorems": [
    "Verif.EM.Line.Props.C128_divergence",
    "Verif.EM.Line.Props.C128_integral_x",
    "Verif.EM.Line.Props.C128_integral_y",
    "Verif.EM.Line.Props.C128_integral_z",
    "Verif.EM.Line.Props.C128_closed",
    "Verif.EM.Line.Props.C128_violated_last_cell",
    "Verif.EM.Line.Props.C128_tree",
    "Verif.EM.Line.Props.C128_violated_tree_check"
   ],
   "note": "violated by the code: a wire beyond the last but one node of an axis raises (C128_violated_last_cell); on tree meshes only the first vertex is checked and the wrong error raised (C128_violated_tree_check); proved for all other wires whose components are zero or above the tolerance; the cells a tree mesh returns along a segment are assumed to contain it"
  },
  {
   "property": "C129",
   "status": "partial",
   "theorems": [
    "Verif.EM.Faces.Props.C129_flux",
    "Verif.EM.Faces.Props.C129_faces",
    "Verif.EM.Faces.Props.C129_violated_direction",
    "Verif.EM.Faces.Props.C129_violated_same_cell",
    "Verif.EM.Faces.Props.C129_violated_turns",
    "Verif.EM.Faces.Props.C129_violated_origin"
   ],
   "note": "violated by the code: the current flows against the wire, opposite to the edge source term (C129_violated_direction), two points in one cell raise (C129_violated_same_cell), a second turn is lost (C129_violated_turns), wires far from the origin are taken for loops and rejected (C129_violated_origin); conservation proved for wires which do not use a face twice"
  },
  {
   "property": "C130",
   "status": "partial",
   "theorems": [
    "Verif.Reg.PGI.C130_membership",
    "Verif.Reg.PGI.C130_nearest",
    "Verif.Reg.PGI.C130_violated_same_mean",
    "Verif.Reg.PGI.C130_value",
    "Verif.Reg.PGI.C130_value_cell",
    "Verif.Reg.PGI.C130_gradient",
    "Verif.Reg.PGI.C130_hessian",
    "Verif.Reg.PGI.C130_hessian_symm",
    "Verif.Reg.PGI.C130_hessian_nonneg",
    "Verif.Reg.PGI.C130_matrix_partial",
    "Verif.Reg.PGI.C130_violated_hessian"
   ],
   "note": "violated by the code: the matrix deriv2(m) multiplies map derivatives and precisions in the wrong order, so it is not symmetric for correlated properties whose maps differ (C130_violated_hessian, hence C130_matrix_partial); units with equal means are confused (C130_violated_same_mean); value, gradient and Hessian product proved for linear relationships"
  },
  {
   "property": "C131",
   "status": "partial",
   "theorems": [
    "Verif.Reg.PGI.C131_density",
    "Verif.Reg.PGI.C131_value",
    "Verif.Reg.PGI.C131_gradient",
    "Verif.Reg.PGI.C131_majorise",
    "Verif.Reg.PGI.C131_minorise",
    "Verif.Reg.PGI.C131_single",
    "Verif.Reg.PGI.C131_hessian_partial",
    "Verif.Reg.PGI.C131_violated_hessian",
    "Verif.Reg.PGI.C131_violated_local"
   ],
   "note": "violated by the code: Hessian matrix not symmetric for differing maps (C131_violated_hessian, hence C131_hessian_partial), gradient raises with local proportions (C131_violated_local); value, gradient and bounds proved"
  },
  {
   "property": "C132",
   "status": "partial",
   "theorems": [
    "Verif.Reg.PGI.C132_hessian_partial",
    "Verif.Reg.PGI.C132_value",
    "Verif.Reg.PGI.C132_update",
    "Verif.Reg.PGI.C132_update_geology",
    "Verif.Reg.PGI.C132_first_model",
    "Verif.Reg.PGI.C132_violated_first_model",
    "Verif.Reg.PGI.C132_violated_gmm",
    "Verif.Reg.PGI.C132_violated_fixed",
    "Verif.Reg.PGI.C132_violated_reference"
   ],
   "note": "violated by the code: the first evaluated model decides the reference (C132_violated_first_model), mixtures or references set by the user and updates with all cells fixed leave the old Hessian block (C132_violated_gmm, C132_violated_reference, C132_violated_fixed); proved for all histories of evaluations and directive updates with a free cell"
  },
  {
   "property": "C133",
   "status": "partial",
   "theorems": [
    "Verif.Utils.GMM.C133_order",
    "Verif.Utils.GMM.C133_order_local",
    "Verif.Utils.GMM.C133_violated_mapping",
    "Verif.Utils.GMM.C133_match_partial",
    "Verif.Utils.GMM.C133_violated_match",
    "Verif.Utils.GMM.C133_mean_between",
    "Verif.Utils.GMM.C133_no_confidence",
    "Verif.Utils.GMM.C133_full_confidence_mean",
    "Verif.Utils.GMM.C133_full_confidence_cov",
    "Verif.Utils.GMM.C133_cov_posDef",
    "Verif.Utils.GMM.C133_weights",
    "Verif.Utils.GMM.C133_full_confidence_weights",
    "Verif.Utils.GMM.C133_m_step",
    "Verif.Utils.GMM.C133_violated_m_step",
    "Verif.Utils.GMM.C133_violated_full"
   ],
   "note": "violated by the code: mappings are not sorted with the units (C133_violated_mapping), matchings which are not swaps go to the wrong unit (C133_violated_match), proportions do not sum to one with non-linear relationships (C133_violated_m_step), full priors give asymmetric covariances (C133_violated_full); proved otherwise; the E step and scikit-learn are not modelled"
  },
  {
   "property": "C134",
   "status": "partial",
   "theorems": [
    "Verif.Directives.PGI.C134_step",
    "Verif.Directives.PGI.C134_step_complete",
    "Verif.Directives.PGI.C134_beta",
    "Verif.Directives.PGI.C134_betamin_partial",
    "Verif.Directives.PGI.C134_alpha",
    "Verif.Directives.PGI.C134_second_phase",
    "Verif.Directives.PGI.C134_no_plateau",
    "Verif.Directives.PGI.C134_first_phase",
    "Verif.Directives.PGI.C134_violated_tolerance",
    "Verif.Directives.PGI.C134_violated_limits",
    "Verif.Directives.PGI.C134_order",
    "Verif.Directives.PGI.C134_violated_add_mref"
   ],
   "note": "violated by the code: the tolerance is ignored in the first phase (C134_violated_tolerance), minimum and maximum are passed by the last change (C134_violated_limits, hence C134_betamin_partial), the learned reference model never reaches the smoothness terms (C134_violated_add_mref); proved otherwise for every run"
  },
  {
   "property": "C135",
   "status": "partial",
   "theorems": [
    "Verif.Maps.Clustering.C135_cells",
    "Verif.Maps.Clustering.C135_default",
    "Verif.Maps.Clustering.C135_deriv_partial",
    "Verif.Maps.Clustering.C135_transpose",
    "Verif.Maps.Clustering.C135_violated_deriv",
    "Verif.Maps.Clustering.C135_violated_rows",
    "Verif.Maps.Clustering.C135_gradient_partial",
    "Verif.Maps.Clustering.C135_violated_gradient"
   ],
   "note": "violated by the code: deriv is the transpose of the Jacobian (C135_violated_deriv), only the first cell is used for several (C135_violated_rows), the gradient with relationships of higher degree is wrong (C135_violated_gradient); proved for affine relationships"
  },
  {
   "property": "C136",
   "status": "proved",
   "theorems": [
    "Verif.NSEM.Layered.Props.C136_impedance",
    "Verif.NSEM.Layered.Props.C136_field_exists",
    "Verif.NSEM.Layered.Props.C136_quadrant",
    "Verif.NSEM.Layered.Props.C136_uniform",
    "Verif.NSEM.Layered.Props.C136_split",
    "Verif.NSEM.Layered.Props.C136_loops",
    "Verif.NSEM.Layered.Props.C136_sensitivity"
   ],
   "note": "real arithmetic; thicknesses may be zero"
  },
  {
   "property": "C137",
   "status": "partial",
   "theorems": [
    "Verif.NSEM.Layered.Props.C137_data",
    "Verif.NSEM.Layered.Props.C137_uniform",
    "Verif.NSEM.Layered.Props.C137_range",
    "Verif.NSEM.Layered.Props.C137_sensitivity_partial",
    "Verif.NSEM.Layered.Props.C137_adjoint",
    "Verif.NSEM.Layered.Props.C137_diag_partial",
    "Verif.NSEM.Layered.Props.C137_violated_diag",
    "Verif.NSEM.Layered.Props.C137_violated_locations",
    "Verif.NSEM.Layered.Props.C137_violated_complex",
    "Verif.NSEM.Layered.Props.C137_fresh",
    "Verif.NSEM.Layered.Props.C137_diag_fresh_partial",
    "Verif.NSEM.Layered.Props.C137_violated_stale",
    "Verif.NSEM.Layered.Props.C137_fixed"
   ],
   "note": "violated by the code: receivers with several locations give one datum but several rows (C137_violated_locations), complex receivers are accepted but predict nothing and take the row of the receiver before or fail (C137_violated_complex), getJtJdiag lacks products of parameters that enter conductivity and thickness (C137_violated_diag, hence C137_diag_partial) and ignores model and weights of later calls (C137_violated_stale, hence C137_diag_fresh_partial); sensitivities proved for the other surveys"
  },
  {
   "property": "C138",
   "status": "partial",
   "theorems": [
    "Verif.VRM.Props.C138_arbitrary",
    "Verif.VRM.Props.C138_window",
    "Verif.VRM.Props.C138_violated_bipolar",
    "Verif.VRM.Props.C138_violated_bipolar_case",
    "Verif.VRM.Props.C138_violated_negative",
    "Verif.VRM.Props.C138_violated_first",
    "Verif.VRM.Props.C138_discrete",
    "Verif.VRM.Props.C138_violated_unchecked",
    "Verif.VRM.Props.C138_off_time",
    "Verif.VRM.Props.C138_pulse",
    "Verif.VRM.Props.C138_step",
    "Verif.VRM.Props.C138_decrease",
    "Verif.VRM.Props.C138_violated_rate"
   ],
   "note": "violated by the code: rates of arbitrary waveforms have a wrong sign at the end of the window (C138_violated_rate), current after the last positive sample is dropped (C138_violated_bipolar, C138_violated_bipolar_case), waveforms without positive current raise IndexError (C138_violated_negative), waveforms on from their first sample decay to zero (C138_violated_first), on-time channels pass for discretised waveforms (C138_violated_unchecked); proved for steps, pulses and for waveforms that are positive inside and zero at the ends"
  },
  {
   "property": "C139",
   "status": "partial",
   "theorems": [
    "Verif.VRM.Props.C139_step",
    "Verif.VRM.Props.C139_step_mean",
    "Verif.VRM.Props.C139_pulse",
    "Verif.VRM.Props.C139_linear",
    "Verif.VRM.Props.C139_linear_pulse",
    "Verif.VRM.Props.C139_violated_hidden",
    "Verif.VRM.Props.C139_violated_on_time"
   ],
   "note": "violated by the code: the unreachable field branch of StepOff has the opposite sign (C139_violated_hidden), on-time channels are accepted (C139_violated_on_time); proved for off-time channels"
  },
  {
   "property": "C140",
   "status": "partial",
   "theorems": [
    "Verif.VRM.Props.C140_dipole_potential",
    "Verif.VRM.Props.C140_dipole_divergence",
    "Verif.VRM.Props.C140_wire",
    "Verif.VRM.Props.C140_line",
    "Verif.VRM.Props.C140_wire_answers",
    "Verif.VRM.Props.C140_violated_inline",
    "Verif.VRM.Props.C140_flag",
    "Verif.VRM.Props.C140_flag_mono",
    "Verif.VRM.Props.C140_dipole_near",
    "Verif.VRM.Props.C140_wire_near",
    "Verif.VRM.Props.C140_line_flag",
    "Verif.VRM.Props.C140_violated_repeated",
    "Verif.VRM.Props.C140_rotation",
    "Verif.VRM.Props.C140_loop_near",
    "Verif.VRM.Props.C140_violated_centre"
   ],
   "note": "violated by the code: locations in line with a wire give NaN (C140_violated_inline), repeated nodes refine every cell (C140_violated_repeated), the centre of a loop is never refined (C140_violated_centre); the field of CircLoop (elliptic integrals) is not modelled; proved otherwise"
  },
  {
   "property": "C141",
   "status": "partial",
   "theorems": [
    "Verif.VRM.Props.C141_symmetric",
    "Verif.VRM.Props.C141_trace",
    "Verif.VRM.Props.C141_transverse",
    "Verif.VRM.Props.C141_axial",
    "Verif.VRM.Props.C141_violated_inside",
    "Verif.VRM.Props.C141_refine",
    "Verif.VRM.Props.C141_quadrature",
    "Verif.VRM.Props.C141_loop_area",
    "Verif.VRM.Props.C141_loop_points"
   ],
   "note": "violated by the code: at the centre of a cell the responses along x and y are negative and along z positive although a cube is symmetric (C141_violated_inside); proved outside cells"
  },
  {
   "property": "C142",
   "status": "partial",
   "theorems": [
    "Verif.VRM.Sim.Props.C142_fields",
    "Verif.VRM.Sim.Props.C142_interval",
    "Verif.VRM.Sim.Props.C142_jvec",
    "Verif.VRM.Sim.Props.C142_jacobian",
    "Verif.VRM.Sim.Props.C142_adjoint",
    "Verif.VRM.Sim.Props.C142_violated_count",
    "Verif.VRM.Sim.Props.C142_violated_receivers",
    "Verif.VRM.Sim.Props.C142_violated_sources",
    "Verif.VRM.Sim.Props.C142_violated_order",
    "Verif.VRM.Sim.Props.C142_loguniform_partial",
    "Verif.VRM.Sim.Props.C142_violated_stale",
    "Verif.VRM.Sim.Props.C142_matrix_partial"
   ],
   "note": "violated by the code: inactive channels given to the constructor or assigned are not subtracted from nD (C142_violated_count); the log-uniform simulation uses the receiver index for the source (C142_violated_receivers, C142_violated_sources) and another order (C142_violated_order), hence C142_loguniform_partial; stored matrices are never renewed (C142_violated_stale), hence C142_matrix_partial; the linear simulation is proved for all surveys"
  },
  {
   "property": "C143",
   "status": "partial",
   "theorems": [
    "Verif.EM.Hankel.Props.C143_dipole_partial",
    "Verif.EM.Hankel.Props.C143_violated_oblique",
    "Verif.EM.Hankel.Props.C143_loop",
    "Verif.EM.Hankel.Props.C143_height",
    "Verif.EM.Hankel.Props.C143_wire",
    "Verif.EM.Hankel.Props.C143_violated_wire"
   ],
   "note": "violated by the code: the coefficient of a y dipole has the square of the x component of the receiver (C143_violated_oblique, hence C143_dipole_partial), the orientation of receivers of wires is ignored (C143_violated_wire); loops, heights and wires proved"
  },
  {
   "property": "C144",
   "status": "partial",
   "theorems": [
    "Verif.EM.Layered1D.Props.C144_data",
    "Verif.EM.Layered1D.Props.C144_violated_ppm",
    "Verif.EM.Layered1D.Props.C144_data_time",
    "Verif.EM.Layered1D.Props.C144_quadrature",
    "Verif.EM.Layered1D.Props.C144_sensitivity_partial",
    "Verif.EM.Layered1D.Props.C144_sensitivity_time",
    "Verif.EM.Layered1D.Props.C144_violated_chargeable",
    "Verif.EM.Layered1D.Props.C144_violated_height",
    "Verif.EM.Layered1D.Props.C144_violated_height_imag",
    "Verif.EM.Layered1D.Props.C144_products",
    "Verif.EM.Layered1D.Props.C144_diag_partial",
    "Verif.EM.Layered1D.Props.C144_violated_diag",
    "Verif.EM.Layered1D.Props.C144_coefficients_partial",
    "Verif.EM.Layered1D.Props.C144_violated_survey",
    "Verif.EM.Layered1D.Props.C144_violated_transfer"
   ],
   "note": "violated by the code: ppm of total-field receivers ignored (C144_violated_ppm), sensitivities to conductivity lack a factor for chargeable layers (C144_violated_chargeable, hence C144_sensitivity_partial), heights enter the sensitivities but not the fields (C144_violated_height, C144_violated_height_imag), getJtJdiag lacks products of properties (C144_violated_diag, hence C144_diag_partial), coefficients stay after a change of survey (C144_violated_survey, hence C144_coefficients_partial) and cannot be handed over in the time domain (C144_violated_transfer); reflection coefficients of geoana are parameters"
  },
  {
   "property": "C145",
   "status": "partial",
   "theorems": [
    "Verif.EM.Relaxation.Props.C145_cole",
    "Verif.EM.Relaxation.Props.C145_cole_limit",
    "Verif.EM.Relaxation.Props.C145_violated_documentation",
    "Verif.EM.Relaxation.Props.C145_sigma_partial",
    "Verif.EM.Relaxation.Props.C145_violated_mixed",
    "Verif.EM.Relaxation.Props.C145_log_uniform",
    "Verif.EM.Relaxation.Props.C145_log_uniform_range",
    "Verif.EM.Relaxation.Props.C145_mu_partial",
    "Verif.EM.Relaxation.Props.C145_violated_mu"
   ],
   "note": "violated by the code: numbers together with arrays of relaxation parameters are taken by frequency or raise (C145_violated_mixed, C145_violated_mu, hence C145_sigma_partial, C145_mu_partial), the documentation of ColeCole has another formula (C145_violated_documentation); bounds, limits and the integral proved"
  },
  {
   "property": "C146",
   "status": "partial",
   "theorems": [
    "Verif.EM.Discretization.Props.C146_layers",
    "Verif.EM.Discretization.Props.C146_violated_one_layer",
    "Verif.EM.Discretization.Props.C146_geometric",
    "Verif.EM.Discretization.Props.C146_points",
    "Verif.EM.Discretization.Props.C146_violated_narrow",
    "Verif.EM.Discretization.Props.C146_step_off",
    "Verif.EM.Discretization.Props.C146_waveform",
    "Verif.EM.Discretization.Props.C146_waveform_before",
    "Verif.EM.Discretization.Props.C146_range_partial",
    "Verif.EM.Discretization.Props.C146_violated_range"
   ],
   "note": "violated by the code: one layer loops forever (C146_violated_one_layer), times within four ratios of the filter raise (C146_violated_narrow), the smallest quadrature time is outside of the range (C146_violated_range, hence C146_range_partial); splines are assumed to interpolate, quadratures to be exact; rounding is not modelled"
  },
  {
   "property": "C147",
   "status": "partial",
   "theorems": [
    "Verif.DC.Layered.Props.C147_potential",
    "Verif.DC.Layered.Props.C147_potential_exists",
    "Verif.DC.Layered.Props.C147_range",
    "Verif.DC.Layered.Props.C147_uniform",
    "Verif.DC.Layered.Props.C147_sensitivity",
    "Verif.DC.Layered.Props.C147_superposition",
    "Verif.DC.Layered.Props.C147_transform",
    "Verif.DC.Layered.Props.C147_reciprocity",
    "Verif.DC.Layered.Props.C147_halfspace",
    "Verif.DC.Layered.Props.C147_apparent_partial",
    "Verif.DC.Layered.Props.C147_violated_apparent",
    "Verif.DC.Layered.Props.C147_violated_current",
    "Verif.DC.Layered.Props.C147_matrix",
    "Verif.DC.Layered.Props.C147_histories_partial",
    "Verif.DC.Layered.Props.C147_violated_survey",
    "Verif.DC.Layered.Props.C147_violated_filter"
   ],
   "note": "violated by the code: apparent resistivities of several data raise ValueError or are divided along the wrong axis (C147_violated_apparent, hence C147_apparent_partial), one current for several electrodes uses the first electrode only (C147_violated_current), coefficients stay after a change of survey and matrices after a change of filter (C147_violated_survey, C147_violated_filter, hence C147_histories_partial); potentials, sensitivities, superposition and reciprocity proved; interpolation by splines is a parameter"
  },
  {
   "property": "C148",
   "status": "partial",
   "theorems": [
    "Verif.Meta.Dask.Props.C148_loop",
    "Verif.Meta.Dask.Props.C148_reduce",
    "Verif.Meta.Dask.Props.C148_violated_reduce",
    "Verif.Meta.Dask.Props.C148_reduce_one",
    "Verif.Meta.Dask.Props.C148_jtvec",
    "Verif.Meta.Dask.Props.C148_sum_jtvec",
    "Verif.Meta.Dask.Props.C148_holder",
    "Verif.Meta.Dask.Props.C148_least",
    "Verif.Meta.Dask.Props.C148_assigned_partial",
    "Verif.Meta.Dask.Props.C148_violated_one_worker",
    "Verif.Meta.Dask.Props.C148_violated_one_object",
    "Verif.Meta.Dask.Props.C148_schedules_partial",
    "Verif.Meta.Dask.Props.C148_progress",
    "Verif.Meta.Dask.Props.C148_violated_race",
    "Verif.Meta.Dask.Props.C148_violated_any_worker",
    "Verif.Meta.Dask.Props.C148_predictions_partial",
    "Verif.Meta.Dask.Props.C148_violated_fields"
   ],
   "note": "violated by the code: on one worker the first member gets none and reductions raise TypeError (C148_violated_one_worker, C148_violated_reduce), a single member never gets a worker and may use an old model (C148_violated_one_object, C148_violated_any_worker, hence C148_assigned_partial), fields not gathered before the next model race with it (C148_violated_race, hence C148_schedules_partial), repeated simulations ignore given fields (C148_violated_fields, hence C148_predictions_partial); the scheduling rules of dask are assumed"
  },
  {
   "property": "C149",
   "status": "partial",
   "theorems": [
    "Verif.PF.EquivalentLayer.Props.C149_elevations",
    "Verif.PF.EquivalentLayer.Props.C149_nodes",
    "Verif.PF.EquivalentLayer.Props.C149_cell",
    "Verif.PF.EquivalentLayer.Props.C149_gravity",
    "Verif.PF.EquivalentLayer.Props.C149_gravity_transpose",
    "Verif.PF.EquivalentLayer.Props.C149_gravity_diagonal_partial",
    "Verif.PF.EquivalentLayer.Props.C149_violated_diagonal",
    "Verif.PF.EquivalentLayer.Props.C149_scalar",
    "Verif.PF.EquivalentLayer.Props.C149_vector",
    "Verif.PF.EquivalentLayer.Props.C149_magnetic_transpose",
    "Verif.PF.EquivalentLayer.Props.C149_magnetic_diagonal_partial",
    "Verif.PF.EquivalentLayer.Props.C149_diagonal_parallel",
    "Verif.PF.EquivalentLayer.Props.C149_split",
    "Verif.PF.EquivalentLayer.Props.C149_violated_order"
   ],
   "note": "violated by the code: the diagonal uses the weights of the first data for every component and receiver object (C149_violated_diagonal, hence C149_gravity_diagonal_partial, C149_magnetic_diagonal_partial), exchanged elevations are accepted and change the sign of the data (C149_violated_order); proved otherwise, in exact arithmetic; nodes of tree meshes and the kernels of geoana and choclo are parameters"
  },
  {
   "property": "C150",
   "status": "partial",
   "theorems": [
    "Verif.Utils.Weights.C150_threshold",
    "Verif.Utils.Weights.C150_depth_scalar",
    "Verif.Utils.Weights.C150_depth_table",
    "Verif.Utils.Weights.C150_range",
    "Verif.Utils.Weights.C150_depth_decreases",
    "Verif.Utils.Weights.C150_violated_zero_threshold",
    "Verif.Utils.Weights.C150_keywords",
    "Verif.Utils.Weights.C150_violated_vector",
    "Verif.Utils.Weights.C150_vector_refused",
    "Verif.Utils.Weights.C150_depth_refused",
    "Verif.Utils.Weights.C150_schedule",
    "Verif.Utils.Weights.C150_distance",
    "Verif.Utils.Weights.C150_distance_shapes",
    "Verif.Utils.Weights.C150_distance_refused",
    "Verif.Utils.Weights.C150_references_permuted",
    "Verif.Utils.Weights.C150_distance_decreases",
    "Verif.Utils.Weights.C150_violated_exponents",
    "Verif.Utils.Weights.C150_violated_no_references"
   ],
   "note": "violated by the code: a threshold of zero gives not-a-number and zeros (C150_violated_zero_threshold), no reference locations give not-a-numbers (C150_violated_no_references), arrays of one axis are accepted by depth weighting (C150_violated_vector), the exponents of the two functions differ by a factor two (C150_violated_exponents); proved for positive thresholds; cKDTree and cdist are libraries, meshes of one dimension are covered for distance weighting in the shapes only"
  },
  {
   "property": "C151",
   "status": "partial",
   "theorems": [
    "Verif.Utils.SurfaceLayer.C151_layer",
    "Verif.Utils.SurfaceLayer.C151_violated_one_column",
    "Verif.Utils.SurfaceLayer.C151_violated_two_columns",
    "Verif.Utils.SurfaceLayer.C151_violated_above"
   ],
   "note": "violated by the code: cells wholly above the ground (C151_violated_above), TypeError for meshes with one column (C151_violated_one_column), topography with two columns (C151_violated_two_columns); proved otherwise; searches are any that return nearest points"
  },
  {
   "property": "C152",
   "status": "partial",
   "theorems": [
    "Verif.Maps.Spherical.Props.C152_transform",
    "Verif.Maps.Spherical.Props.C152_refused",
    "Verif.Maps.Spherical.Props.C152_violated_mesh",
    "Verif.Maps.Spherical.Props.C152_derivative_partial",
    "Verif.Maps.Spherical.Props.C152_violated_elevation",
    "Verif.Maps.Spherical.Props.C152_violated_amplitude",
    "Verif.Maps.Spherical.Props.C152_kept_partial",
    "Verif.Maps.Spherical.Props.C152_violated_in_place"
   ],
   "note": "violated by the code: with a mesh the map asks for one value per cell (C152_violated_mesh), angles outside the ranges and negative amplitudes reverse columns of the derivative (C152_violated_elevation, C152_violated_amplitude, hence C152_derivative_partial), arrays changed in place give the old derivative (C152_violated_in_place, hence C152_kept_partial)"
  },
  {
   "property": "C153",
   "status": "partial",
   "theorems": [
    "Verif.Maps.Between.Props.C153_tile",
    "Verif.Maps.Between.Props.C153_tile_refused",
    "Verif.Maps.Between.Props.C153_tile_shape",
    "Verif.Maps.Between.Props.C153_local_active",
    "Verif.Maps.Between.Props.C153_average",
    "Verif.Maps.Between.Props.C153_violated_average",
    "Verif.Maps.Between.Props.C153_integral",
    "Verif.Maps.Between.Props.C153_meshes",
    "Verif.Maps.Between.Props.C153_m2m_partial",
    "Verif.Maps.Between.Props.C153_violated_m2m",
    "Verif.Maps.Between.Props.C153_complex_create",
    "Verif.Maps.Between.Props.C153_complex",
    "Verif.Maps.Between.Props.C153_complex_refused",
    "Verif.Maps.Between.Props.C153_complex_deriv",
    "Verif.Maps.Between.Props.C153_complex_adjoint",
    "Verif.Maps.Between.Props.C153_violated_adjoint"
   ],
   "note": "violated by the code: local cells not filled by active cells are divided by their whole volume (C153_violated_average), matrices of Mesh2Mesh are kept when meshes or active cells are assigned (C153_violated_m2m, hence C153_m2m_partial), the adjoint of ComplexMap is complex (C153_violated_adjoint); proved otherwise; the search for containing cells and interpolation matrices are parameters"
  },
  {
   "property": "C154",
   "status": "partial",
   "theorems": [
    "Verif.IO.PotentialFields.Props.C154_mag_partial",
    "Verif.IO.PotentialFields.Props.C154_grav_partial",
    "Verif.IO.PotentialFields.Props.C154_grav_sign",
    "Verif.IO.PotentialFields.Props.C154_stable",
    "Verif.IO.PotentialFields.Props.C154_violated_zero",
    "Verif.IO.PotentialFields.Props.C154_violated_component",
    "Verif.IO.PotentialFields.Props.C154_several_refused",
    "Verif.IO.PotentialFields.Props.C154_violated_columns",
    "Verif.IO.PotentialFields.Props.C154_violated_short",
    "Verif.IO.PotentialFields.Props.C154_violated_gradient_twice",
    "Verif.IO.PotentialFields.Props.C154_gradient_partial",
    "Verif.IO.PotentialFields.Props.C154_violated_gradient_zero",
    "Verif.IO.PotentialFields.Props.C154_axes"
   ],
   "note": "violated by the code: data that are all zero come back as not-a-numbers (C154_violated_zero) or, for gradients, the uncertainties come back as the data (C154_violated_gradient_zero), hence the _partial round trips for data not all zero; components other than tmi and gz are lost (C154_violated_component); writing gradients renames the components of the receiver, so that a second write fails (C154_violated_gradient_twice); readers never return for truncated files (C154_violated_short); splitting of lines into words and infinities are not modelled"
  },
  {
   "property": "C155",
   "status": "partial",
   "theorems": [
    "Verif.DC.Abmn.Props.C155_sorting_partial",
    "Verif.DC.Abmn.Props.C155_order_partial",
    "Verif.DC.Abmn.Props.C155_electrodes_partial",
    "Verif.DC.Abmn.Props.C155_sources",
    "Verif.DC.Abmn.Props.C155_violated_near",
    "Verif.DC.Abmn.Props.C155_violated_tolerance",
    "Verif.DC.Abmn.Props.C155_args"
   ],
   "note": "violated by the code: sources within a millimetre of each other that are not equal make the call fail (C155_violated_near), dipoles shorter than 1e-5 of their coordinates become poles (C155_violated_tolerance); hence the _partial theorems for sources apart from each other"
  },
  {
   "property": "C156",
   "status": "partial",
   "theorems": [
    "Verif.IO.Xyz.Props.C156_column_partial",
    "Verif.IO.Xyz.Props.C156_violated_column",
    "Verif.IO.Xyz.Props.C156_violated_one_row",
    "Verif.IO.Xyz.Props.C156_missing",
    "Verif.IO.Xyz.Props.C156_violated_surface_line",
    "Verif.IO.Xyz.Props.C156_round_trip_partial"
   ],
   "note": "violated by the code: with another column in front the data are taken from the wrong column or the call fails (C156_violated_column, hence C156_column_partial for columns in the order of the file), files with one row (C156_violated_one_row), surface data of a line take each electrode from the next column (C156_violated_surface_line); splitting of lines into words is not modelled"
  },
  {
   "property": "C157",
   "status": "partial",
   "theorems": [
    "Verif.IO.Dcip.Props.C157_round_trip_partial",
    "Verif.IO.Dcip.Props.C157_two_partial",
    "Verif.IO.Dcip.Props.C157_three_partial",
    "Verif.IO.Dcip.Props.C157_violated_surface_pole",
    "Verif.IO.Dcip.Props.C157_violated_pole_first",
    "Verif.IO.Dcip.Props.C157_violated_tolerance",
    "Verif.IO.Dcip.Props.C157_violated_pole_receiver_first",
    "Verif.IO.Dcip.Props.C157_violated_mixed",
    "Verif.IO.Dcip.Props.C157_violated_current",
    "Verif.IO.Dcip.Props.C157_object"
   ],
   "note": "violated by the code: after a pole source or receiver all later ones are read as poles (C157_violated_pole_first, C157_violated_pole_receiver_first), pole and dipole receivers of one source cannot be read (C157_violated_mixed), pole receivers of surface files in three dimensions have two coordinates (C157_violated_surface_pole), dipoles in large coordinates become poles (C157_violated_tolerance), currents are not written (C157_violated_current), writing predicted voltages changes the uncertainties of the object or fails (C157_object); the _partial theorems hold for surveys of one kind; the simple format of DCIP2D is not modelled"
  },
  {
   "property": "C158",
   "status": "partial",
   "theorems": [
    "Verif.NSEM.Primary.Props.C158_field",
    "Verif.NSEM.Primary.Props.C158_equation",
    "Verif.NSEM.Primary.Props.C158_electric",
    "Verif.NSEM.Primary.Props.C158_magnetic",
    "Verif.NSEM.Primary.Props.C158_amplitude",
    "Verif.NSEM.Primary.Props.C158_refused",
    "Verif.NSEM.Primary.Props.C158_violated_dirichlet",
    "Verif.NSEM.Primary.Props.C158_total",
    "Verif.NSEM.Primary.Props.C158_no_secondary",
    "Verif.NSEM.Primary.Props.C158_any_primary",
    "Verif.NSEM.Primary.Props.C158_faraday",
    "Verif.NSEM.Primary.Props.C158_sigma_partial",
    "Verif.NSEM.Primary.Props.C158_violated_float",
    "Verif.NSEM.Primary.Props.C158_violated_ignored",
    "Verif.NSEM.Primary.Props.C158_violated_kept"
   ],
   "note": "violated by the code: the Dirichlet condition at the bottom (the default of primary_h_1d_solution) puts the field of the bottom of the mesh at the bottom of the padding (C158_violated_dirichlet); a number for sigma_primary, as documented, is refused (C158_violated_float); the conductivity of the source is ignored in one dimension (C158_violated_ignored); the field is kept when the frequency, the mesh or the primary model change (C158_violated_kept); projection of the 1D field to edges is not modelled"
  },
  {
   "property": "C159",
   "status": "partial",
   "theorems": [
    "Verif.NSEM.Analytic.Props.C159_impedance",
    "Verif.NSEM.Analytic.Props.C159_fields",
    "Verif.NSEM.Analytic.Props.C159_agree",
    "Verif.NSEM.Analytic.Props.C159_recursive",
    "Verif.NSEM.Analytic.Props.C159_violated_above",
    "Verif.NSEM.Analytic.Props.C159_violated_scale"
   ],
   "note": "violated by the code: places above the mesh keep uninitialised memory (C159_violated_above) and scaleValue has no effect with scaleUD (C159_violated_scale); the rest is proved for every layered Earth"
  },
  {
   "property": "C160",
   "status": "partial",
   "theorems": [
    "Verif.PF.Spheres.C160_gravity",
    "Verif.PF.Spheres.C160_inside",
    "Verif.PF.Spheres.C160_gradient",
    "Verif.PF.Spheres.C160_violated_inside",
    "Verif.PF.Spheres.C160_violated_centre",
    "Verif.PF.Spheres.C160_violated_integers",
    "Verif.PF.Spheres.C160_violated_sizes",
    "Verif.PF.Spheres.C160_interface",
    "Verif.PF.Spheres.C160_secondary",
    "Verif.PF.Spheres.C160_outside",
    "Verif.PF.Spheres.C160_violated_flag",
    "Verif.PF.Spheres.C160_direction",
    "Verif.PF.Spheres.C160_agree",
    "Verif.PF.Spheres.C160_violated_total",
    "Verif.PF.Spheres.C160_free",
    "Verif.PF.Spheres.C160_violated_free_inside",
    "Verif.PF.Spheres.C160_congruous",
    "Verif.PF.Spheres.C160_congruous_change",
    "Verif.PF.Spheres.C160_centre_partial",
    "Verif.PF.Spheres.C160_violated_cells",
    "Verif.PF.Spheres.C160_angles"
   ],
   "note": "violated by the code: the gradient tensor inside of the sphere is never that of the derivatives (C160_violated_inside), nothing is returned at the centre (C160_violated_centre), locations given as integers cut the mass (C160_violated_integers), arrays of different sizes are never refused (C160_violated_sizes), unknown words are accepted (C160_violated_flag), MagSphereAnaFunA lacks the uniform field outside (C160_violated_total), MagSphereFreeSpace is wrong inside (C160_violated_free_inside), CongruousMagBC ignores volumes in the centre (C160_violated_cells, hence C160_centre_partial for cells of one size)"
  },
  {
   "property": "C161",
   "status": "partial",
   "theorems": [
    "Verif.DC.Analytic.C161_apparent",
    "Verif.DC.Analytic.C161_reciprocity",
    "Verif.DC.Analytic.C161_whole",
    "Verif.DC.Analytic.C161_half",
    "Verif.DC.Analytic.C161_violated_buried",
    "Verif.DC.Analytic.C161_violated_name",
    "Verif.DC.Analytic.C161_sphere_potential",
    "Verif.DC.Analytic.C161_sphere_current",
    "Verif.DC.Analytic.C161_sphere_none",
    "Verif.DC.Analytic.C161_sphere_primary_partial",
    "Verif.DC.Analytic.C161_violated_depth",
    "Verif.DC.Analytic.C161_sphere_sum_partial",
    "Verif.DC.Analytic.C161_violated_half_space",
    "Verif.DC.Analytic.C161_violated_sphere_centre"
   ],
   "note": "violated by the code: buried electrodes in a half-space (C161_violated_buried), misspelt kinds of ground (C161_violated_name), the depth of the source of DCAnalyticSphere is ignored (C161_violated_depth, hence C161_sphere_primary_partial), total is not primary plus secondary on a half-space (C161_violated_half_space, hence C161_sphere_sum_partial), centre of the sphere (C161_violated_sphere_centre); that the expansion in Legendre polynomials converges is not proved, the jumps at the surface are shown to be exactly its remainder"
  },
  {
   "property": "C162",
   "status": "partial",
   "theorems": [
    "Verif.TDEM.Dipoles.Props.C162_magnetic_partial",
    "Verif.TDEM.Dipoles.Props.C162_violated_dhdt",
    "Verif.TDEM.Dipoles.Props.C162_violated_e",
    "Verif.TDEM.Dipoles.Props.C162_electric_partial",
    "Verif.TDEM.Dipoles.Props.C162_violated_h",
    "Verif.TDEM.Dipoles.Props.C162_loop",
    "Verif.TDEM.Dipoles.Props.C162_loop_start",
    "Verif.TDEM.Dipoles.Props.C162_returns",
    "Verif.TDEM.Dipoles.Props.C162_violated_case"
   ],
   "note": "violated by the code: dhdt of the magnetic dipole has the wrong sign (C162_violated_dhdt), its electric field has the wrong sign and is divided by the distance once too often (C162_violated_e), the magnetic field of the electric dipole has the wrong sign (C162_violated_h), names of axes in lower case are refused by one function only (C162_violated_case); the _partial theorems prove all of the statement for the fields with these factors corrected"
  },
  {
   "property": "C163",
   "status": "partial",
   "theorems": [
    "Verif.FDEM.Dipoles.Props.C163_magnetic_partial",
    "Verif.FDEM.Dipoles.Props.C163_violated_e",
    "Verif.FDEM.Dipoles.Props.C163_electric_partial",
    "Verif.FDEM.Dipoles.Props.C163_violated_permittivity",
    "Verif.FDEM.Dipoles.Props.C163_static",
    "Verif.FDEM.Dipoles.Props.C163_decay",
    "Verif.FDEM.Dipoles.Props.C163_returns",
    "Verif.FDEM.Dipoles.Props.C163_low"
   ],
   "note": "violated by the code: the electric field of the magnetic dipole has the wrong sign and is divided by the distance once too often (C163_violated_e), the electric field of the electric dipole lacks the permittivity that its wave number has (C163_violated_permittivity); the _partial theorems prove Maxwell's equations with these factors corrected, or without permittivity; hzAnalyticDipoleF is not derived from the equations of the half-space, its limits are proved"
  },
  {
   "property": "C164",
   "status": "partial",
   "theorems": [
    "Verif.FDEM.Dipolar.Props.C164_sum",
    "Verif.FDEM.Dipolar.Props.C164_inductive",
    "Verif.FDEM.Dipolar.Props.C164_galvanic",
    "Verif.FDEM.Dipolar.Props.C164_maxwell_partial",
    "Verif.FDEM.Dipolar.Props.C164_violated_h",
    "Verif.FDEM.Dipolar.Props.C164_static",
    "Verif.FDEM.Dipolar.Props.C164_violated_defaults",
    "Verif.FDEM.Dipolar.Props.C164_densities",
    "Verif.FDEM.Dipolar.Props.C164_places",
    "Verif.FDEM.Dipolar.Props.C164_frequencies",
    "Verif.FDEM.Dipolar.Props.C164_parts",
    "Verif.FDEM.Dipolar.Props.C164_violated_check",
    "Verif.FDEM.Dipolar.Props.C164_violated_pairs",
    "Verif.FDEM.Dipolar.Props.C164_violated_arguments"
   ],
   "note": "violated by the code: H has a wrong sign of the wave number and is not the curl of A (C164_violated_h, hence C164_maxwell_partial for the curl of A), the default permeabilities of E and of its parts differ (C164_violated_defaults), several places with several frequencies are never refused (C164_violated_check, C164_violated_pairs), numbers as frequency, A along z and unknown orientations fail (C164_violated_arguments)"
  },
  {
   "property": "C165",
   "status": "partial",
   "theorems": [
    "Verif.FDEM.Casing.Props.C165_wavenumber",
    "Verif.FDEM.Casing.Props.C165_violated_frequency",
    "Verif.FDEM.Casing.Props.C165_maxwell_partial",
    "Verif.FDEM.Casing.Props.C165_derivatives",
    "Verif.FDEM.Casing.Props.C165_attenuation",
    "Verif.FDEM.Casing.Props.C165_no_casing",
    "Verif.FDEM.Casing.Props.C165_violated_e",
    "Verif.FDEM.Casing.Props.C165_e_partial",
    "Verif.FDEM.Casing.Props.C165_violated_b",
    "Verif.FDEM.Casing.Props.C165_b_partial"
   ],
   "note": "violated by the code: the electric field is multiplied with the array of all three permeabilities, so that it fails unless there are one or three places and is then wrong (C165_violated_e, hence C165_e_partial and C165_maxwell_partial with the permeability of the formation), the flux has the permeability of free space (C165_violated_b), the wave number is not a number at zero frequency (C165_violated_frequency)"
  },
  {
   "property": "C166",
   "status": "partial",
   "theorems": [
    "Verif.NSEM.Earth.Props.C166_impedance",
    "Verif.NSEM.Earth.Props.C166_half_space",
    "Verif.NSEM.Earth.Props.C166_violated_excess",
    "Verif.NSEM.Earth.Props.C166_few",
    "Verif.NSEM.Earth.Props.C166_violated_permeability",
    "Verif.NSEM.Earth.Props.C166_violated_colecole",
    "Verif.NSEM.Earth.Props.C166_results",
    "Verif.NSEM.Earth.Props.C166_violated_integers",
    "Verif.NSEM.Earth.Props.C166_permittivity",
    "Verif.NSEM.Earth.Props.C166_thickness"
   ],
   "note": "violated by the code: permeabilities other than a float raise UnboundLocalError (C166_violated_permeability), parameters of chargeable layers fail or remove the conductivity (C166_violated_colecole), thicknesses in excess are accepted and shift the layers (C166_violated_excess), integer frequencies are refused or cut the results to integers (C166_violated_integers); proved for all layered Earths otherwise"
  },
  {
   "property": "C167",
   "status": "partial",
   "theorems": [
    "Verif.NSEM.Records.C167_real_round_trip_partial",
    "Verif.NSEM.Records.C167_complex_round_trip_partial",
    "Verif.NSEM.Records.C167_violated_tipper",
    "Verif.NSEM.Records.C167_violated_parts",
    "Verif.NSEM.Records.C167_violated_locations",
    "Verif.NSEM.Records.C167_violated_admittance",
    "Verif.NSEM.Records.C167_violated_refused",
    "Verif.NSEM.Records.C167_frequencies"
   ],
   "note": "violated by the code: tables of real parts with tippers cannot be read back (C167_violated_tipper), the complex form loses readings of which only one part was measured (C167_violated_parts), locations of the second field and of other receivers are not kept (C167_violated_locations), admittances become impedances (C167_violated_admittance), some surveys are refused (C167_violated_refused); the round trips are proved for all regular data otherwise"
  },
  {
   "property": "C168",
   "status": "partial",
   "theorems": [
    "Verif.NSEM.Records.C168_rotate_partial",
    "Verif.NSEM.Records.C168_rotate_frame",
    "Verif.NSEM.Records.C168_rotate_group",
    "Verif.NSEM.Records.C168_violated_single",
    "Verif.NSEM.Records.C168_violated_missing",
    "Verif.NSEM.Records.C168_violated_tipper",
    "Verif.NSEM.Records.C168_info_partial",
    "Verif.NSEM.Records.C168_violated_info",
    "Verif.NSEM.Records.C168_violated_resample",
    "Verif.NSEM.Records.C168_violated_oned_single",
    "Verif.NSEM.Records.C168_violated_oned",
    "Verif.NSEM.Records.C168_oned_partial",
    "Verif.NSEM.Records.C168_apparent",
    "Verif.NSEM.Records.C168_skindepth"
   ],
   "note": "violated by the code: rotation fails for one frequency with several locations (C168_violated_single) and for incomplete tensors (C168_violated_missing) and leaves tippers as they are (C168_violated_tipper), lists are misaligned with admittances (C168_violated_info), resampling always fails (C168_violated_resample), one-dimensional data fail for all documented names (C168_violated_oned)"
  },
  {
   "property": "C169",
   "status": "partial",
   "theorems": [
    "Verif.NSEM.Edi.C169_degrees_partial",
    "Verif.NSEM.Edi.C169_violated_degrees",
    "Verif.NSEM.Edi.C169_block",
    "Verif.NSEM.Edi.C169_missing",
    "Verif.NSEM.Edi.C169_lines",
    "Verif.NSEM.Edi.C169_words",
    "Verif.NSEM.Edi.C169_count",
    "Verif.NSEM.Edi.C169_impedance",
    "Verif.NSEM.Edi.C169_violated_variance",
    "Verif.NSEM.Edi.C169_violated_components"
   ],
   "note": "violated by the code: minutes and seconds are dropped at zero degrees (C169_violated_degrees), variances are scaled by the factor instead of its square (C169_violated_variance), lists without the exchanged component and tippers cannot be imported (C169_violated_components)"
  },
  {
   "property": "C170",
   "status": "partial",
   "theorems": [
    "Verif.Utils.Counter.C170_history",
    "Verif.Utils.Counter.C170_no_error",
    "Verif.Utils.Counter.C170_stop_first",
    "Verif.Utils.Counter.C170_counts",
    "Verif.Utils.Counter.C170_summary_partial",
    "Verif.Utils.Counter.C170_shown",
    "Verif.Utils.Counter.C170_entries_partial",
    "Verif.Utils.Counter.C170_violated_recursion",
    "Verif.Utils.Counter.C170_violated_exception",
    "Verif.Utils.Counter.C170_names"
   ],
   "note": "violated by the code: single times are wrong with recursion (C170_violated_recursion), a call that ends with an exception leaves minus the clock at its start (C170_violated_exception); number of calls proved for all executions, totals for all without exceptions"
  },
  {
   "property": "C171",
   "status": "partial",
   "theorems": [
    "Verif.IO.General.C171_surface_partial",
    "Verif.IO.General.C171_unique",
    "Verif.IO.General.C171_violated_hang",
    "Verif.IO.General.C171_violated_blanks",
    "Verif.IO.General.C171_violated_parts",
    "Verif.IO.General.C171_download_partial",
    "Verif.IO.General.C171_violated_overwrite",
    "Verif.IO.General.C171_violated_same"
   ],
   "note": "violated by the code: reading never ends without the expected lines (C171_violated_hang), two blanks shift the coordinates (C171_violated_blanks), further parts and vertices with properties are dropped (C171_violated_parts), downloads overwrite in any case (C171_violated_overwrite, C171_violated_same)"
  },
  {
   "property": "C172",
   "status": "partial",
   "theorems": [
    "Verif.IO.Drivers.C172_read_partial",
    "Verif.IO.Drivers.C172_defaults",
    "Verif.IO.Drivers.C172_violated_keyword",
    "Verif.IO.Drivers.C172_violated_blanks",
    "Verif.IO.Drivers.C172_history_partial",
    "Verif.IO.Drivers.C172_violated_loop",
    "Verif.IO.Drivers.C172_violated_order",
    "Verif.IO.Drivers.C172_violated_reduced",
    "Verif.IO.Drivers.C172_violated_marks",
    "Verif.IO.Drivers.C172_active_file",
    "Verif.IO.Drivers.C172_static_dynamic"
   ],
   "note": "violated by the code: two blanks after a keyword (C172_violated_blanks), other keywords (C172_violated_keyword), active cells and starting model both given by values never end (C172_violated_loop), answers depend on the order of questions (C172_violated_order), the starting model is not reduced to the active cells but the reference model is (C172_violated_reduced), the driver for magnetics does not read the file of active cells (C172_violated_marks); proved for all files with one blank and all orders of questions after mesh and active cells"
  },
  {
   "property": "C173",
   "status": "partial",
   "theorems": [
    "Verif.DC.Locations.C173_order",
    "Verif.DC.Locations.C173_perm",
    "Verif.DC.Locations.C173_data",
    "Verif.DC.Locations.C173_sources",
    "Verif.DC.Locations.C173_electrodes",
    "Verif.DC.Locations.C173_again",
    "Verif.DC.Locations.C173_kind_partial",
    "Verif.DC.Locations.C173_violated_mixed",
    "Verif.DC.Locations.C173_violated_write",
    "Verif.DC.Locations.C173_violated_kept",
    "Verif.DC.Locations.C173_quantities_partial",
    "Verif.DC.Locations.C173_violated_voltage",
    "Verif.DC.Locations.C173_ip",
    "Verif.DC.Locations.C173_core_x",
    "Verif.DC.Locations.C173_core_y",
    "Verif.DC.Locations.C173_core_z_partial",
    "Verif.DC.Locations.C173_violated_depth",
    "Verif.DC.Locations.C173_spacing_partial",
    "Verif.DC.Locations.C173_violated_spacing",
    "Verif.DC.Locations.C173_tree",
    "Verif.DC.Locations.C173_violated_top",
    "Verif.DC.Locations.C173_violated_core"
   ],
   "note": "violated by the code: voltages from apparent conductivities do not depend on the data (C173_violated_voltage), files with poles and dipoles (C173_violated_mixed), tables of three dimensions cannot be written (C173_violated_write), data of an earlier table are kept (C173_violated_kept), the core ignores the range of heights in three dimensions (C173_violated_depth), electrodes with the same x give cells of size zero (C173_violated_spacing), electrodes above a point of the topography can be above the mesh (C173_violated_top), corezlength returns the rate of the padding (C173_violated_core); grouping and data are proved for all tables"
  },
  {
   "property": "C174",
   "status": "partial",
   "theorems": [
    "Verif.DC.Profile.C174_line",
    "Verif.DC.Profile.C174_receivers",
    "Verif.DC.Profile.C174_points",
    "Verif.DC.Profile.C174_count",
    "Verif.DC.Profile.C174_violated_case",
    "Verif.DC.Profile.C174_violated_conductivity",
    "Verif.DC.Profile.C174_violated_reversed",
    "Verif.DC.Profile.C174_violated_reversed_dipole",
    "Verif.DC.Profile.C174_survey",
    "Verif.DC.Profile.C174_inside_partial",
    "Verif.DC.Profile.C174_violated_end",
    "Verif.DC.Profile.C174_violated_gradient",
    "Verif.DC.Profile.C174_violated_repeated",
    "Verif.DC.Profile.C174_violated_unknown"
   ],
   "note": "violated by the code: the dimension \"3d\" (C174_violated_case), apparent conductivities (C174_violated_conductivity), lines from right to left in 2D (C174_violated_reversed, C174_violated_reversed_dipole), pole-dipole arrays reach beyond the line (C174_violated_end), gradient arrays fail or repeat readings (C174_violated_gradient, C174_violated_repeated), unknown arrays (C174_violated_unknown); sources, receivers and counts are proved for all other lines"
  },
  {
   "property": "C175",
   "status": "partial",
   "theorems": [
    "Verif.DC.LineID.C175_numbers",
    "Verif.DC.LineID.C175_straight",
    "Verif.DC.LineID.C175_turn_partial",
    "Verif.DC.LineID.C175_violated_far",
    "Verif.DC.LineID.C175_violated_poles",
    "Verif.DC.LineID.C175_violated_class",
    "Verif.DC.LineID.C175_dipoles"
   ],
   "note": "violated by the code: sources far beside the beginning of a line (C175_violated_far), poles as dipoles of no length (C175_violated_poles), pole sources (C175_violated_class); proved: numbers, straight lines, lines that go back and forth"
  },
  {
   "property": "C176",
   "status": "proved",
   "theorems": [
    "Verif.PF.Numba.C176_matrix",
    "Verif.PF.Numba.C176_transpose_serial",
    "Verif.PF.Numba.C176_transpose_parallel",
    "Verif.PF.Numba.C176_diagonal_serial",
    "Verif.PF.Numba.C176_diagonal_parallel",
    "Verif.PF.Numba.C176_forward",
    "Verif.PF.Numba.C176_agree",
    "Verif.PF.Numba.C176_entries",
    "Verif.PF.Numba.C176_prisms",
    "Verif.PF.Numba.C176_gravity"
   ],
   "note": "loops entry by entry over any numbers of receivers and cells, parallel loops for every order and distribution over threads, in exact arithmetic"
  },
  {
   "property": "C177",
   "status": "partial",
   "theorems": [
    "Verif.PF.Differential.C177_fields",
    "Verif.PF.Differential.C177_terms",
    "Verif.PF.Differential.C177_solvable",
    "Verif.PF.Differential.C177_polarization",
    "Verif.PF.Differential.C177_violated_number",
    "Verif.PF.Differential.C177_flux_derivative",
    "Verif.PF.Differential.C177_sensitivity",
    "Verif.PF.Differential.C177_order",
    "Verif.PF.Differential.C177_violated_order",
    "Verif.PF.Differential.C177_history_partial",
    "Verif.PF.Differential.C177_violated_close",
    "Verif.PF.Differential.C177_violated_mu",
    "Verif.PF.Differential.C177_violated_store",
    "Verif.PF.Differential.C177_violated_gravity"
   ],
   "note": "violated by the code: numbers near mu_0 give no field (C177_violated_number), data are ordered by components (C177_violated_order), models that are close keep the fields of the model before (C177_violated_close, hence C177_history_partial), a permeability set later keeps solver and fields (C177_violated_mu), storeJ fails from the second product on (C177_violated_store), the simulation of gravity always fails (C177_violated_gravity); equations, uniqueness, solvability, sensitivities and adjoints proved for all models"
  },
  {
   "property": "C178",
   "status": "partial",
   "theorems": [
    "Verif.TDEM.Convolve.Props.C178_superposition",
    "Verif.TDEM.Convolve.Props.C178_accepted",
    "Verif.TDEM.Convolve.Props.C178_causal",
    "Verif.TDEM.Convolve.Props.C178_linear",
    "Verif.TDEM.Convolve.Props.C178_static",
    "Verif.TDEM.Convolve.Props.C178_ramp_partial",
    "Verif.TDEM.Convolve.Props.C178_ramp_bounds_partial",
    "Verif.TDEM.Convolve.Props.C178_piecewise",
    "Verif.TDEM.Convolve.Props.C178_violated_ramp",
    "Verif.TDEM.Convolve.Props.C178_vtem_function"
   ],
   "note": "violated by the code: a ramp with positive epsilon loses the part of the ramp within epsilon of its start (C178_violated_ramp, hence C178_ramp_partial and C178_ramp_bounds_partial for epsilon zero); superposition, causality, linearity, static and piecewise linear currents proved; quadrature is taken as exact"
  },
  {
   "property": "C179",
   "status": "partial",
   "theorems": [
    "Verif.DC.Pseudo.Props.C179_readings",
    "Verif.DC.Pseudo.Props.C179_midpoints",
    "Verif.DC.Pseudo.Props.C179_flat",
    "Verif.DC.Pseudo.Props.C179_wenner",
    "Verif.DC.Pseudo.Props.C179_depth",
    "Verif.DC.Pseudo.Props.C179_reciprocity_partial",
    "Verif.DC.Pseudo.Props.C179_translation",
    "Verif.DC.Pseudo.Props.C179_refused",
    "Verif.DC.Pseudo.Props.C179_violated_pole",
    "Verif.DC.Pseudo.Props.C179_violated_zero",
    "Verif.DC.Pseudo.Props.C179_violated_reciprocity",
    "Verif.DC.Pseudo.Props.C179_violated_slope",
    "Verif.DC.Pseudo.Props.C179_violated_above"
   ],
   "note": "violated by the code: a pole source centred in its receivers has infinite depth (C179_violated_pole), tolerance zero gives NaN (C179_violated_zero), exchanged Wenner arrays differ (C179_violated_reciprocity, hence C179_reciprocity_partial), on slopes the location is moved downhill and above the ground beyond 38 degrees (C179_violated_slope, C179_violated_above)"
  },
  {
   "property": "C180",
   "status": "partial",
   "theorems": [
    "Verif.Utils.RandomModel.C180_bounds",
    "Verif.Utils.RandomModel.C180_kernel_scale",
    "Verif.Utils.RandomModel.C180_smoothing",
    "Verif.Utils.RandomModel.C180_interior",
    "Verif.Utils.RandomModel.C180_ends",
    "Verif.Utils.RandomModel.C180_passes",
    "Verif.Utils.RandomModel.C180_default_kernels",
    "Verif.Utils.RandomModel.C180_errors",
    "Verif.Utils.RandomModel.C180_violated_single",
    "Verif.Utils.RandomModel.C180_ellipse",
    "Verif.Utils.RandomModel.C180_ellipse_axes",
    "Verif.Utils.RandomModel.C180_violated_ellipse_line",
    "Verif.Utils.RandomModel.C180_violated_polygon"
   ],
   "note": "Proved for random and elliptic models; a model of one cell is not a number, in one dimension the angle changes the size of the ellipse, and the checks of points of polygons never fail."
  },
  {
   "property": "C181",
   "status": "proved",
   "theorems": [
    "Verif.PF.ActiveNodes.C181_corners",
    "Verif.PF.ActiveNodes.C181_nodes",
    "Verif.PF.ActiveNodes.C181_all",
    "Verif.PF.ActiveNodes.C181_meshes"
   ],
   "note": "All meshes and masks."
  },
  {
   "property": "C182",
   "status": "proved",
   "theorems": [
    "Verif.NSEM.Efields1D.C182_equations",
    "Verif.NSEM.Efields1D.C182_ends",
    "Verif.NSEM.Efields1D.C182_amplitude",
    "Verif.NSEM.Efields1D.C182_unscaled"
   ],
   "note": "Equations, uniqueness, ends and amplitude, with exact arithmetic; the accuracy of the discretization is not claimed."
  },
  {
   "property": "C183",
   "status": "partial",
   "theorems": [
    "Verif.Utils.Hooks.C183_hooks",
    "Verif.Utils.Hooks.C183_hook_error",
    "Verif.Utils.Hooks.C183_violated_infix",
    "Verif.Utils.Hooks.C183_violated_projection",
    "Verif.Utils.Hooks.C183_recall",
    "Verif.Utils.Hooks.C183_forgotten",
    "Verif.Utils.Hooks.C183_violated_twice",
    "Verif.Utils.Hooks.C183_violated_late",
    "Verif.Utils.Hooks.C183_kwargs",
    "Verif.Utils.Hooks.C183_violated_kwargs",
    "Verif.Utils.Hooks.C183_hook",
    "Verif.Utils.Hooks.C183_requires",
    "Verif.Utils.Hooks.C183_deprecated",
    "Verif.Utils.Hooks.C183_violated_both"
   ],
   "note": "Proved for hooks, memory, keyword arguments and deprecations. Violated: hooks match anywhere in a name, hooks of the projection cannot project, names asked twice are remembered twice, the model remembered at the end of an iteration is the one before it, refused keyword arguments leave changes."
  },
  {
   "property": "C184",
   "status": "partial",
   "theorems": [
    "Verif.Utils.ModelCache.C184_new",
    "Verif.Utils.ModelCache.C184_transform_partial",
    "Verif.Utils.ModelCache.C184_violated_stale",
    "Verif.Utils.ModelCache.C184_derived",
    "Verif.Utils.ModelCache.C184_violated_slice",
    "Verif.Utils.ModelCache.C184_violated_receivers"
   ],
   "note": "Proved for new models, arrays made from models and histories without writes after the first read; violated: stale products after writes, parts of models keep the map, the indices of receivers are never returned."
  },
  {
   "property": "C185",
   "status": "partial",
   "theorems": [
    "Verif.PF.DaskOperator.Props.C185_chunks",
    "Verif.PF.DaskOperator.Props.C185_chunks_end",
    "Verif.PF.DaskOperator.Props.C185_chunks_forever",
    "Verif.PF.DaskOperator.Props.C185_matrix",
    "Verif.PF.DaskOperator.Props.C185_data",
    "Verif.PF.DaskOperator.Props.C185_reload_partial",
    "Verif.PF.DaskOperator.Props.C185_violated_stale",
    "Verif.PF.DaskOperator.Props.C185_violated_shape",
    "Verif.PF.DaskOperator.Props.C185_violated_chunks"
   ],
   "note": "Chunk sizes, rows, data and the file of the same simulation are proved. Violated by the code: an existing file is returned whatever it holds, also with another shape (C185_violated_stale, C185_violated_shape), and other numbers of chunks are a ValueError (C185_violated_chunks)."
  },
  {
   "property": "C186",
   "status": "partial",
   "theorems": [
    "Verif.DC.DaskDiag.Props.C186_first",
    "Verif.DC.DaskDiag.Props.C186_amplitude",
    "Verif.DC.DaskDiag.Props.C186_history_partial",
    "Verif.DC.DaskDiag.Props.C186_violated_weights",
    "Verif.DC.DaskDiag.Props.C186_violated_value",
    "Verif.DC.DaskDiag.Props.C186_violated_gravity",
    "Verif.DC.DaskDiag.Props.C186_serial",
    "Verif.DC.DaskDiag.Props.C186_getJ_partial",
    "Verif.DC.DaskDiag.Props.C186_again",
    "Verif.DC.DaskDiag.Props.C186_violated_getJ",
    "Verif.DC.DaskDiag.Props.C186_blocks",
    "Verif.DC.DaskDiag.Props.C186_violated_blocks"
   ],
   "note": "First calls, calls with the same weights, sums and order of blocks are proved. Violated by the code: other weights give the diagonal of the first ones (C186_violated_weights, C186_violated_value), gravity without weights raises AttributeError (C186_violated_gravity), getJ of another model gives the old sensitivities (C186_violated_getJ), declared sizes of blocks (C186_violated_blocks)."
  },
  {
   "property": "C187",
   "status": "partial",
   "theorems": [
    "Verif.DC.Topography.Props.C187_surface",
    "Verif.DC.Topography.Props.C187_violated_empty",
    "Verif.DC.Topography.Props.C187_columns",
    "Verif.DC.Topography.Props.C187_tree",
    "Verif.DC.Topography.Props.C187_closest",
    "Verif.DC.Topography.Props.C187_drape",
    "Verif.DC.Topography.Props.C187_violated_tree",
    "Verif.DC.Topography.Props.C187_points",
    "Verif.DC.Topography.Props.C187_lines",
    "Verif.DC.Topography.Props.C187_lines_all",
    "Verif.DC.Topography.Props.C187_extent",
    "Verif.DC.Topography.Props.C187_violated_z0",
    "Verif.DC.Topography.Props.C187_violated_gradient"
   ],
   "note": "Surface, nearest places, draping on tensor meshes and line numbers are proved. Violated by the code: columns without active cells are an error (C187_violated_empty), tree meshes move the points (C187_violated_tree), the elevation of the lines is ignored (C187_violated_z0), gradient arrays fail (C187_violated_gradient)."
  },
  {
   "property": "C188",
   "status": "partial",
   "theorems": [
    "Verif.DC.SipMappings.Props.C188_maps",
    "Verif.DC.SipMappings.Props.C188_all",
    "Verif.DC.SipMappings.Props.C188_none",
    "Verif.DC.SipMappings.Props.C188_violated_indices",
    "Verif.DC.SipMappings.Props.C188_violated_run"
   ],
   "note": "Maps proved for all masks. Violated by the code: active cells by indices (C188_violated_indices); run_inversion always raises TypeError (C188_violated_run)."
  },
  {
   "property": "C189",
   "status": "partial",
   "theorems": [
    "Verif.GMMFit.C189_best",
    "Verif.GMMFit.C189_iterations",
    "Verif.GMMFit.C189_warm",
    "Verif.GMMFit.C189_continued",
    "Verif.GMMFit.C189_responsibilities",
    "Verif.GMMFit.C189_fixed",
    "Verif.GMMFit.C189_few",
    "Verif.GMMFit.C189_violated_converged",
    "Verif.GMMFit.C189_violated_predict",
    "Verif.GMMFit.C189_violated_version"
   ],
   "note": "Proved for all steps of estimation. Violated by the code: converged_ and the warning are about any initialization, not the one that is returned (C189_violated_converged); fit_predict returns the mixture (C189_violated_predict); with scikit-learn before 1.6 it fails (C189_violated_version)."
  },
  {
   "property": "C190",
   "status": "partial",
   "theorems": [
    "Verif.Optim.Phases.C190_runs",
    "Verif.Optim.Phases.C190_direction",
    "Verif.Optim.Phases.C190_descent",
    "Verif.Optim.Phases.C190_kinds",
    "Verif.Optim.Phases.C190_phase",
    "Verif.Optim.Phases.C190_turn",
    "Verif.Optim.Phases.C190_violated_binding"
   ],
   "note": "Phases, directions and their end are proved for all sequences of iterates. Violated by the code: whether components are held at bounds is decided with the gradient of the point before (C190_violated_binding)."
  },
  {
   "property": "C191",
   "status": "partial",
   "theorems": [
    "Verif.Deprecate.C191_class",
    "Verif.Deprecate.C191_class_removed",
    "Verif.Deprecate.C191_derived",
    "Verif.Deprecate.C191_violated_nested",
    "Verif.Deprecate.C191_property",
    "Verif.Deprecate.C191_call",
    "Verif.Deprecate.C191_removed",
    "Verif.Deprecate.C191_violated_error",
    "Verif.Deprecate.C191_message",
    "Verif.Deprecate.C191_names",
    "Verif.Deprecate.C191_violated_names"
   ],
   "note": "Proved for classes with one old name and for all properties and functions. Violated by the code: an old class that derives from an old class recurses for ever (C191_violated_nested); future_warn hides error (C191_violated_error); wrong class in the messages of properties (C191_violated_names)."
  },
  {
   "property": "C192",
   "status": "partial",
   "theorems": [
    "Verif.GMMEstimate.C192_means",
    "Verif.GMMEstimate.C192_covariances",
    "Verif.GMMEstimate.C192_relationships",
    "Verif.GMMEstimate.C192_identity",
    "Verif.GMMEstimate.C192_refine",
    "Verif.GMMEstimate.C192_weights",
    "Verif.GMMEstimate.C192_violated_weights",
    "Verif.GMMEstimate.C192_violated_units",
    "Verif.GMMEstimate.C192_tied_rows",
    "Verif.GMMEstimate.C192_violated_tied"
   ],
   "note": "Proved for the class without relationships, and with relationships for covariances of the units. Violated by the code with relationships: tied covariances mix rows of different mappings, are not symmetric and can be negative (C192_violated_tied) or raise IndexError (C192_violated_units), proportions depend on the mesh and overwrite those of the cells (C192_violated_weights)."
  },
  {
   "property": "C193",
   "status": "partial",
   "theorems": [
    "Verif.Flow.Soils.C193_van_genuchten",
    "Verif.Flow.Soils.C193_haverkamp",
    "Verif.Flow.Soils.C193_monotone",
    "Verif.Flow.Soils.C193_soils",
    "Verif.Flow.Soils.C193_floats",
    "Verif.Flow.Soils.C193_violated_integers"
   ],
   "note": "Factories, table and float heads are proved. Violated by the code: for heads given as integers the saturated conductivity is truncated, to zero for every soil of the table (C193_violated_integers)."
  },
  {
   "property": "C194",
   "status": "partial",
   "theorems": [
    "Verif.Find.C194_all",
    "Verif.Find.C194_terms",
    "Verif.Find.C194_directive",
    "Verif.Find.C194_violated_nested",
    "Verif.Find.C194_violated_sum",
    "Verif.Find.C194_violated_empty"
   ],
   "note": "All functions are found, and combinations of single functions give the right list. Violated by the code: functions in inner combinations come as nested lists, which the directives accept and then fail on (C194_violated_nested, C194_violated_sum); combinations without terms are dropped (C194_violated_empty)."
  },
  {
   "property": "C195",
   "status": "partial",
   "theorems": [
    "Verif.PDE.Solvers.Props.C195_default",
    "Verif.PDE.Solvers.Props.C195_last",
    "Verif.PDE.Solvers.Props.C195_construct",
    "Verif.PDE.Solvers.Props.C195_system",
    "Verif.PDE.Solvers.Props.C195_warns",
    "Verif.PDE.Solvers.Props.C195_violated_magnetics",
    "Verif.PDE.Solvers.Props.C195_violated_options",
    "Verif.PDE.Solvers.Props.C195_violated_newton",
    "Verif.PDE.Solvers.Props.C195_violated_boundary",
    "Verif.PDE.Solvers.Props.C195_violated_none",
    "Verif.PDE.Solvers.Props.C195_hessian",
    "Verif.PDE.Solvers.Props.C195_violated_symmetric",
    "Verif.PDE.Solvers.Props.C195_violated_nested"
   ],
   "note": "violated by the code: magnetic simulations drop the options they are given, initial fields, boundary simulations, Newton steps and gravity pass no options, Newton and boundary keep the first solver, None is accepted, the symmetric option of BFGS is announced but not set and misfits in combinations are not seen (C195_violated_*); the rest is proved for all histories. Warm factorisations kept by a simulation (_Adcinv, Ainv) are not modelled here"
  },
  {
   "property": "C196",
   "status": "partial",
   "theorems": [
    "Verif.Utils.GMMStart.Props.C196_weights",
    "Verif.Utils.GMMStart.Props.C196_given",
    "Verif.Utils.GMMStart.Props.C196_violated_diag",
    "Verif.Utils.GMMStart.Props.C196_violated_spherical",
    "Verif.Utils.GMMStart.Props.C196_estimated",
    "Verif.Utils.GMMStart.Props.C196_violated_covariances",
    "Verif.Utils.GMMStart.Props.C196_precisions",
    "Verif.Utils.GMMStart.Props.C196_covariances",
    "Verif.Utils.GMMStart.Props.C196_roundtrip"
   ],
   "note": "Acceptance of proportions, starts without precisions or with full or tied precisions, and the computations of precisions and covariances are proved for all inputs. Diagonal and spherical precisions given by a user are used without a square root (C196_violated_diag, C196_violated_spherical), and no covariances are set when precisions are given (C196_violated_covariances). Cholesky factorization is a parameter with its contract."
  },
  {
   "property": "C197",
   "status": "partial",
   "theorems": [
    "Verif.DC.Currents.Props.C197_cell_fields",
    "Verif.DC.Currents.Props.C197_nodal_fields",
    "Verif.DC.Currents.Props.C197_energy",
    "Verif.DC.Currents.Props.C197_cell_derivatives",
    "Verif.DC.Currents.Props.C197_cell_adjoint",
    "Verif.DC.Currents.Props.C197_inverse_derivative",
    "Verif.DC.Currents.Props.C197_violated_current",
    "Verif.DC.Currents.Props.C197_nodal_potential",
    "Verif.DC.Currents.Props.C197_violated_nodal"
   ],
   "note": "Ohm's law, conservation, charges, and the derivatives of potentials (cells and nodes) and electric fields of cells are proved for all operators. Current densities have no sensitivities (C197_violated_current), nor have nodal electric fields and currents (C197_violated_nodal). Diagonal inner products; one source and one vector at a time."
  },
  {
   "property": "C198",
   "status": "partial",
   "theorems": [
    "Verif.DC.Wenner.Props.C198_arrays",
    "Verif.DC.Wenner.Props.C198_once",
    "Verif.DC.Wenner.Props.C198_count",
    "Verif.DC.Wenner.Props.C198_distance",
    "Verif.DC.Wenner.Props.C198_violated_integer"
   ],
   "note": "Proved for all float spacings in exact arithmetic; an integer spacing raises TypeError (C198_violated_integer)."
  },
  {
   "property": "C199",
   "status": "partial",
   "theorems": [
    "Verif.DC.Planes.Props.C199_near",
    "Verif.DC.Planes.Props.C199_violated_collinear",
    "Verif.DC.Planes.Props.C199_kept",
    "Verif.DC.Planes.Props.C199_distances",
    "Verif.DC.Planes.Props.C199_options",
    "Verif.DC.Planes.Props.C199_violated_options"
   ],
   "note": "Selection by true distance, several planes and their distances, and options that have a default are proved for all inputs. Points on a line keep nothing (C199_violated_collinear) and options without a default are dropped (C199_violated_options)."
  },
  {
   "property": "C200",
   "status": "partial",
   "theorems": [
    "Verif.Utils.Plot2D.Props.C200_limits",
    "Verif.Utils.Plot2D.Props.C200_violated_options",
    "Verif.Utils.Plot2D.Props.C200_linear",
    "Verif.Utils.Plot2D.Props.C200_log",
    "Verif.Utils.Plot2D.Props.C200_data",
    "Verif.Utils.Plot2D.Props.C200_shade",
    "Verif.Utils.Plot2D.Props.C200_flat",
    "Verif.Utils.Plot2D.Props.C200_scalar",
    "Verif.Utils.Plot2D.Props.C200_violated_vector",
    "Verif.Utils.Plot2D.Props.C200_violated_figname"
   ],
   "note": "Limits, levels, limits from data and bounds of shades are proved for all inputs. The limits are taken out of the dictionary of the caller (C200_violated_options), vectors with levels raise TypeError (C200_violated_vector), and a name of a figure together with axes raises an exception (C200_violated_figname)."
  },
  {
   "property": "C201",
   "status": "partial",
   "theorems": [
    "Verif.Utils.LayerPlot.Props.C201_curve",
    "Verif.Utils.LayerPlot.Props.C201_lengths",
    "Verif.Utils.LayerPlot.Props.C201_violated_halfspace",
    "Verif.Utils.LayerPlot.Props.C201_shown",
    "Verif.Utils.LayerPlot.Props.C201_violated_negative",
    "Verif.Utils.LayerPlot.Props.C201_older",
    "Verif.Utils.LayerPlot.Props.C201_violated_xlim"
   ],
   "note": "The curve is proved for all layered models with at least one thickness. A halfspace raises IndexError (C201_violated_halfspace), negative values leave the axis (C201_violated_negative), and the older function never works with limits (C201_violated_xlim)."
  },
  {
   "property": "C202",
   "status": "partial",
   "theorems": [
    "Verif.Utils.Tables.Props.C202_titles",
    "Verif.Utils.Tables.Props.C202_line",
    "Verif.Utils.Tables.Props.C202_header",
    "Verif.Utils.Tables.Props.C202_violated_long",
    "Verif.Utils.Tables.Props.C202_stoppers"
   ],
   "note": "Proved for titles and values that fit their columns; a value that is too long moves the columns to its right (C202_violated_long)."
  },
  {
   "property": "C203",
   "status": "partial",
   "theorems": [
    "Verif.DC.Pseudosection.Props.C203_values",
    "Verif.DC.Pseudosection.Props.C203_drawn",
    "Verif.DC.Pseudosection.Props.C203_kinds",
    "Verif.DC.Pseudosection.Props.C203_pcolor",
    "Verif.DC.Pseudosection.Props.C203_violated_pcolor",
    "Verif.DC.Pseudosection.Props.C203_violated_pcolor_norm",
    "Verif.DC.Pseudosection.Props.C203_violated_case",
    "Verif.DC.Pseudosection.Props.C203_violated_bar",
    "Verif.DC.Pseudosection.Props.C203_axis",
    "Verif.DC.Pseudosection.Props.C203_ticks"
   ],
   "note": "Data, scales, axis and ticks are proved for scatter plots and contours, and for pcolor with options that have no scale. pcolor raises TypeError without options (C203_violated_pcolor) and with a scale (C203_violated_pcolor_norm), capital letters pass the check and raise later (C203_violated_case), and the format of the colour bar cannot be given (C203_violated_bar)."
  },
  {
   "property": "C204",
   "status": "partial",
   "theorems": [
    "Verif.NSEM.StationPlot.Props.C204_station",
    "Verif.NSEM.StationPlot.Props.C204_violated_missing",
    "Verif.NSEM.StationPlot.Props.C204_violated_second",
    "Verif.NSEM.StationPlot.Props.C204_values",
    "Verif.NSEM.StationPlot.Props.C204_resistivity_bar",
    "Verif.NSEM.StationPlot.Props.C204_amplitude_bar",
    "Verif.NSEM.StationPlot.Props.C204_violated_phase",
    "Verif.NSEM.StationPlot.Props.C204_violated_map",
    "Verif.NSEM.StationPlot.Props.C204_iso",
    "Verif.NSEM.StationPlot.Props.C204_defaults",
    "Verif.NSEM.StationPlot.Props.C204_no_options"
   ],
   "note": "Readings, values and error bars of apparent resistivities and amplitudes are proved for surveys with one receiver of each kind for each frequency. A frequency without the receiver removes the curve (C204_violated_missing), stations in a second receiver are not found (C204_violated_second), error bars of phases are wrong (C204_violated_phase), and maps always raise (C204_violated_map)."
  },
  {
   "property": "C205",
   "status": "partial",
   "theorems": [
    "Verif.VRM.Assignments.Props.C205_accepted_iff",
    "Verif.VRM.Assignments.Props.C205_refused_unchanged",
    "Verif.VRM.Assignments.Props.C205_assignment",
    "Verif.VRM.Assignments.Props.C205_same_length",
    "Verif.VRM.Assignments.Props.C205_violated_resize",
    "Verif.VRM.Assignments.Props.C205_piecewise_built",
    "Verif.VRM.Assignments.Props.C205_violated_piecewise",
    "Verif.VRM.Assignments.Props.C205_violated_initial"
   ],
   "note": "Arbitrary discrete waveforms keep arrays of one length after every history (C205_same_length), but their number of points can never change (C205_violated_resize). Piecewise linear waveforms are consistent when built (C205_piecewise_built); later assignments are not checked (C205_violated_piecewise, C205_violated_initial)."
  },
  {
   "property": "C206",
   "status": "partial",
   "theorems": [
    "Verif.VRM.Assignments.Props.C206_built_iff",
    "Verif.VRM.Assignments.Props.C206_built",
    "Verif.VRM.Assignments.Props.C206_histories_partial",
    "Verif.VRM.Assignments.Props.C206_violated_assignments"
   ],
   "note": "Construction is decided exactly (C206_built_iff). Later assignments are safe only if they never set choclo, or never set disk (C206_histories_partial); all others get past the check (C206_violated_assignments)."
  },
  {
   "property": "C207",
   "status": "partial",
   "theorems": [
    "Verif.Reg.TotalGradient.Props.C207_total",
    "Verif.Reg.TotalGradient.Props.C207_components",
    "Verif.Reg.TotalGradient.Props.C207_weights",
    "Verif.Reg.TotalGradient.Props.C207_magnitude",
    "Verif.Reg.TotalGradient.Props.C207_uniform",
    "Verif.Reg.TotalGradient.Props.C207_violated_cancel",
    "Verif.Reg.TotalGradient.Props.C207_violated_boundary",
    "Verif.Reg.TotalGradient.Props.C207_tree_uniform",
    "Verif.Reg.TotalGradient.Props.C207_tree_total",
    "Verif.Reg.TotalGradient.Props.C207_tree_magnitude",
    "Verif.Reg.TotalGradient.Props.C207_tree_components",
    "Verif.Reg.TotalGradient.Props.C207_violated_tree_cancel"
   ],
   "note": "Proved on tensor meshes: value, sign, homogeneity, uniform gradients away from boundaries, and components. Gradients that change sign across a cell cancel (C207_violated_cancel), and next to a boundary a uniform gradient counts three quarters (C207_violated_boundary). On tree meshes uniform gradients count in full (C207_tree_uniform); cancellation is the same (C207_violated_tree_cancel)."
  }
 ]
}