{
 "claims": [
  {
   "property": "C01",
   "status": "proved",
   "theorems": [
    "Mocat.Props.C01_copy_same",
    "Mocat.Props.C01_isolated",
    "Mocat.Props.C01_isolated_back",
    "Mocat.Props.C01_nested_shared",
    "Mocat.Props.C01_deepcopy",
    "Mocat.Props.C01_deepcopy_total",
    "Mocat.Props.C01_deepcopy_isolated"
   ],
   "note": "M: heap of attribute dictionaries, `copy` = new object with the same bindings, `deepcopy` = recursive. P: induction over operation sequences (frame property)."
  },
  {
   "property": "C02",
   "status": "proved",
   "theorems": [
    "Mocat.Props.C02_flatten_unflatten",
    "Mocat.Props.C02_unflatten_flatten",
    "Mocat.Props.C02_nested_round_trip",
    "Mocat.Props.C02_tree_map",
    "Mocat.Props.C02_tree_map_structure",
    "Mocat.Props.C02_static_is_leaf"
   ],
   "note": "M: cdict as ordered association list with nested/static children. P: structural induction."
  },
  {
   "property": "C03",
   "status": "proved",
   "theorems": [
    "Mocat.Props.C03_string",
    "Mocat.Props.C03_keys",
    "Mocat.Props.C03_paths",
    "Mocat.Props.C03_string_missing"
   ],
   "note": "M: `__getitem__`, `__add__` branch by branch on a value type (array / scalar / nested / static / other). P: structural induction."
  },
  {
   "property": "C04",
   "status": "proved",
   "theorems": [
    "Mocat.Props.C04_keys",
    "Mocat.Props.C04_none",
    "Mocat.Props.C04_rows",
    "Mocat.Props.C04_row_positions",
    "Mocat.Props.C04_time",
    "Mocat.Props.C04_nested",
    "Mocat.Props.C04_other",
    "Mocat.Props.C04_only_left",
    "Mocat.Props.C04_prepend"
   ],
   "note": "M: `__getitem__`, `__add__` branch by branch on a value type (array / scalar / nested / static / other). P: structural induction."
  },
  {
   "property": "C05",
   "status": "proved",
   "theorems": [
    "Mocat.Props.C05_assoc"
   ],
   "note": "M: `__getitem__`, `__add__` branch by branch on a value type (array / scalar / nested / static / other). P: structural induction."
  },
  {
   "property": "C06",
   "status": "proved",
   "theorems": [
    "Mocat.Props.C06_no_overwrite",
    "Mocat.Props.C06_existing_files"
   ],
   "note": "M: file system as path -> contents; save as a list of atomic effects; a crash is any prefix. P: case analysis on prefixes, frame property; violation witnesses for crash atomicity and name collision."
  },
  {
   "property": "C07",
   "status": "proved",
   "theorems": [
    "Mocat.Props.C07_load_save",
    "Mocat.Props.C07_save_succeeds",
    "Mocat.Props.C07_sound",
    "Mocat.Props.C07_load_missing",
    "Mocat.Props.C07_load_suffix"
   ],
   "note": "M: file system as path -> contents; save as a list of atomic effects; a crash is any prefix. P: case analysis on prefixes, frame property; violation witnesses for crash atomicity and name collision."
  },
  {
   "property": "C08",
   "status": "partial",
   "theorems": [
    "Mocat.Props.C08_crash_loses_file",
    "Mocat.Props.C08_overwrite_partial",
    "Mocat.Props.C08_names_collide",
    "Mocat.Props.C08_names_partial",
    "Mocat.Props.C08_clash_iff"
   ],
   "note": "The code violates the property (C08_crash_loses_file, C08_names_collide). Proved instead: the contents survive every crash point except between unlink and the end of the write; C08_clash_iff says exactly which paths collide."
  },
  {
   "property": "C09",
   "status": "proved",
   "theorems": [
    "Mocat.Props.C09_construct",
    "Mocat.Props.C09_only_potential",
    "Mocat.Props.C09_likelihood",
    "Mocat.Props.C09_prior_counted_twice",
    "Mocat.Props.C09_history"
   ],
   "note": "M: scenario as attribute record + `__setattr__` state machine; closures read attributes at call time. P: invariant over assignment histories."
  },
  {
   "property": "C10",
   "status": "partial",
   "theorems": [
    "Mocat.Props.C10_gradients_fresh_partial",
    "Mocat.Props.C10_potential_assignment_stale",
    "Mocat.Props.C10_override_stale"
   ],
   "note": "False after assigning `potential` itself and for classes with their own __setattr__ (C10_potential_assignment_stale, C10_override_stale). Proved for all sequences of assignments to prior, likelihood and temperature."
  },
  {
   "property": "C11",
   "status": "proved",
   "theorems": [
    "Mocat.Props.C11_while_loop_stacked",
    "Mocat.Props.C11_raw_stack",
    "Mocat.Props.C11_length"
   ],
   "note": "M: the scan with `(carry, final_iter)` exactly as written. P: refinement to an ordinary bounded while loop, by induction."
  },
  {
   "property": "C12",
   "status": "proved",
   "theorems": [
    "Mocat.Props.C12_run",
    "Mocat.Props.C12_mcmc",
    "Mocat.Props.C12_mcmc_length"
   ],
   "note": "M: the scan with `(carry, final_iter)` exactly as written. P: refinement to an ordinary bounded while loop, by induction."
  },
  {
   "property": "C13",
   "status": "proved",
   "theorems": [
    "Mocat.Props.C13_precedence",
    "Mocat.Props.C13_method_names",
    "Mocat.Props.C13_unknown_kwarg",
    "Mocat.Props.C13_history",
    "Mocat.Props.C13_construct"
   ],
   "note": "M: ordered dictionaries with optional values. P: pointwise characterisation + induction over runs."
  },
  {
   "property": "C14",
   "status": "proved",
   "theorems": [
    "Mocat.Props.C14_all_or_nothing",
    "Mocat.Props.C14_update",
    "Mocat.Props.C14_nan_rejected",
    "Mocat.Props.C14_certain_accept",
    "Mocat.Props.C14_zero_rejected",
    "Mocat.Props.C14_alpha_range_randomWalk",
    "Mocat.Props.C14_alpha_range_underdamped"
   ],
   "note": "M: `Fl`-valued acceptance, Metropolis.correct, MCMCSampler.update. P: case analysis, invariant by induction over runs."
  },
  {
   "property": "C15",
   "status": "proved",
   "theorems": [
    "Mocat.Props.C15_never_zero_density",
    "Mocat.Props.C15_potential_of_value"
   ],
   "note": "M: `Fl`-valued acceptance, Metropolis.correct, MCMCSampler.update. P: case analysis, invariant by induction over runs."
  },
  {
   "property": "C16",
   "status": "proved",
   "theorems": [
    "Mocat.Props.C16_ideal",
    "Mocat.Props.C16_update_invariant",
    "Mocat.Props.C16_chain_invariant"
   ],
   "note": "M: the update as a function of (state, noise, uniform). P: Mathlib measure theory (`lintegral`), detailed balance, measure-preserving shears, Gaussian convolution."
  },
  {
   "property": "C17",
   "status": "proved",
   "theorems": [
    "Mocat.Props.C17_detailed_balance",
    "Mocat.Props.C17_flow",
    "Mocat.Props.C17_symmetric"
   ],
   "note": "M: the update as a function of (state, noise, uniform). P: Mathlib measure theory (`lintegral`), detailed balance, measure-preserving shears, Gaussian convolution."
  },
  {
   "property": "C18",
   "status": "proved",
   "theorems": [
    "Mocat.Props.C18_involution",
    "Mocat.Props.C18_consistent",
    "Mocat.Props.C18_chain_shape"
   ],
   "note": "M: `_leapfrog` scan over position/momentum/gradient. P: induction on L."
  },
  {
   "property": "C19",
   "status": "proved",
   "theorems": [
    "Mocat.Props.C19_ideal",
    "Mocat.Props.C19_volume",
    "Mocat.Props.C19_update_invariant",
    "Mocat.Props.C19_chain_invariant"
   ],
   "note": "M: the update as a function of (state, noise, uniform). P: Mathlib measure theory (`lintegral`), detailed balance, measure-preserving shears, Gaussian convolution."
  },
  {
   "property": "C20",
   "status": "proved",
   "theorems": [
    "Mocat.Props.C20_refresh"
   ],
   "note": "M: the update as a function of (state, noise, uniform). P: Mathlib measure theory (`lintegral`), detailed balance, measure-preserving shears, Gaussian convolution."
  },
  {
   "property": "C21",
   "status": "proved",
   "theorems": [
    "Mocat.Props.C21_iter_counts"
   ],
   "note": "M: `Fl`-valued acceptance, Metropolis.correct, MCMCSampler.update. P: case analysis, invariant by induction over runs."
  },
  {
   "property": "C22",
   "status": "proved",
   "theorems": [
    "Mocat.Props.C22_randomWalk_nodup",
    "Mocat.Props.C22_underdamped_nodup",
    "Mocat.Props.C22_randomWalk_uses",
    "Mocat.Props.C22_randomWalk_next",
    "Mocat.Props.C22_underdamped_uses",
    "Mocat.Props.C22_underdamped_next",
    "Mocat.Props.C22_randomWalk_run",
    "Mocat.Props.C22_underdamped_run",
    "Mocat.Props.C22_qn_nodup",
    "Mocat.Props.C22_abc_nodup",
    "Mocat.Props.C22_qn_uses",
    "Mocat.Props.C22_qn_next",
    "Mocat.Props.C22_qn_run",
    "Mocat.Props.C22_abc_uses",
    "Mocat.Props.C22_abc_next",
    "Mocat.Props.C22_abc_run"
   ],
   "note": "M: free key tree with consumption log. P: disjointness of subtrees, induction; violation witness for the filter."
  },
  {
   "property": "C23",
   "status": "proved",
   "theorems": [
    "Mocat.Props.C23_update_rule",
    "Mocat.Props.C23_update_rule_linear",
    "Mocat.Props.C23_frozen",
    "Mocat.Props.C23_positive",
    "Mocat.Props.C23_closed_form",
    "Mocat.Props.C23_direction",
    "Mocat.Props.C23_on_target",
    "Mocat.Props.C23_recorded"
   ],
   "note": "M: adaptation recurrences (Robbins-Monro stepsizes, quasi-Newton memory). P: invariants by induction."
  },
  {
   "property": "C24",
   "status": "proved",
   "theorems": [
    "Mocat.Props.C24_window",
    "Mocat.Props.C24_initial",
    "Mocat.Props.C24_factors"
   ],
   "note": "M: adaptation recurrences (Robbins-Monro stepsizes, quasi-Newton memory). P: invariants by induction."
  },
  {
   "property": "C25",
   "status": "proved",
   "theorems": [
    "Mocat.Props.C25_in_range",
    "Mocat.Props.C25_out_of_range"
   ],
   "note": "M: utils.py functions over `\u211d`/matrices. P: algebra (Mathlib), induction on memory length."
  },
  {
   "property": "C26",
   "status": "proved",
   "theorems": [
    "Mocat.Props.C26_vector_density",
    "Mocat.Props.C26_scalar",
    "Mocat.Props.C26_default",
    "Mocat.Props.C26_vector_sqrt",
    "Mocat.Props.C26_matrix_sqrt",
    "Mocat.Props.C26_diagonal_matrix",
    "Mocat.Props.C26_matrix_constant",
    "Mocat.Props.C26_matrix_normalised",
    "Mocat.Props.C26_vector_normalised",
    "Mocat.Props.C26_batch"
   ],
   "note": "M: utils.py functions over `\u211d`/matrices. P: algebra (Mathlib), induction on memory length."
  },
  {
   "property": "C27",
   "status": "partial",
   "theorems": [
    "Mocat.Props.C27_sample_linear",
    "Mocat.Props.C27_sample_nonlinear",
    "Mocat.Props.C27_sample_transition",
    "Mocat.Props.C27_toy_matrix",
    "Mocat.Props.C27_toy_vector",
    "Mocat.Props.C27_potential",
    "Mocat.Props.C27_consistent_partial",
    "Mocat.Props.C27_violated",
    "Mocat.Props.C27_vector_potential",
    "Mocat.Props.C27_diagonal_partial"
   ],
   "note": "False for non-diagonal covariances in the state-space potentials (C27_violated) and for vector covariances (C27_vector_potential). Proved for every other use, and for every diagonal covariance."
  },
  {
   "property": "C28",
   "status": "proved",
   "theorems": [
    "Mocat.Props.C28_iterates",
    "Mocat.Props.C28_result",
    "Mocat.Props.C28_root",
    "Mocat.Props.C28_same_sign"
   ],
   "note": "M: utils.py functions over `\u211d`/matrices. P: algebra (Mathlib), induction on memory length."
  },
  {
   "property": "C29",
   "status": "partial",
   "theorems": [
    "Mocat.Props.C29_adjoint",
    "Mocat.Props.C29_matrix",
    "Mocat.Props.C29_det_partial",
    "Mocat.Props.C29_log_abs_det_partial",
    "Mocat.Props.C29_scalar_det"
   ],
   "note": "False for a scalar diagonal in dimension > 1 (C29_scalar_det gives the value). Proved for vector diagonals, all dimensions and memory lengths."
  },
  {
   "property": "C30",
   "status": "proved",
   "theorems": [
    "Mocat.Props.C30_inverse",
    "Mocat.Props.C30_posDef",
    "Mocat.Props.C30_secant",
    "Mocat.Props.C30_rows"
   ],
   "note": "M: utils.py functions over `\u211d`/matrices. P: algebra (Mathlib), induction on memory length."
  },
  {
   "property": "C31",
   "status": "proved",
   "theorems": [
    "Mocat.Props.C31_curvature",
    "Mocat.Props.C31_not_skipped",
    "Mocat.Props.C31_no_damping"
   ],
   "note": "M: utils.py functions over `\u211d`/matrices. P: algebra (Mathlib), induction on memory length."
  },
  {
   "property": "C32",
   "status": "proved",
   "theorems": [
    "Mocat.Props.C32_taper",
    "Mocat.Props.C32_continuous",
    "Mocat.Props.C32_matrix",
    "Mocat.Props.C32_circulant"
   ],
   "note": "M: utils.py functions over `\u211d`/matrices. P: algebra (Mathlib), induction on memory length."
  },
  {
   "property": "C33",
   "status": "proved",
   "theorems": [
    "Mocat.Props.C33_formula",
    "Mocat.Props.C33_range",
    "Mocat.Props.C33_max_iff",
    "Mocat.Props.C33_shift",
    "Mocat.Props.C33_perm",
    "Mocat.Props.C33_count",
    "Mocat.Props.C33_all_dead",
    "Mocat.Props.C33_nan_iff"
   ],
   "note": "M: metrics/kernels. P: Cauchy-Schwarz, finite sums, `HasDerivAt`."
  },
  {
   "property": "C34",
   "status": "partial",
   "theorems": [
    "Mocat.Props.C34_exact_partial",
    "Mocat.Props.C34_short_partial",
    "Mocat.Props.C34_length",
    "Mocat.Props.C34_circular",
    "Mocat.Props.C34_wraps"
   ],
   "note": "False when the series plus the lag does not fit the transform (C34_wraps); C34_circular says what is returned then. Proved for all series and lags that fit."
  },
  {
   "property": "C35",
   "status": "proved",
   "theorems": [
    "Mocat.Props.C35_iat",
    "Mocat.Props.C35_explicit_lag",
    "Mocat.Props.C35_ess"
   ],
   "note": "M: metrics/kernels. P: Cauchy-Schwarz, finite sums, `HasDerivAt`."
  },
  {
   "property": "C36",
   "status": "proved",
   "theorems": [
    "Mocat.Props.C36_gradX",
    "Mocat.Props.C36_gradY",
    "Mocat.Props.C36_diagGradXY",
    "Mocat.Props.C36_values",
    "Mocat.Props.C36_separates"
   ],
   "note": "M: metrics/kernels. P: Cauchy-Schwarz, finite sums, `HasDerivAt`."
  },
  {
   "property": "C37",
   "status": "partial",
   "theorems": [
    "Mocat.Props.C37_gradY",
    "Mocat.Props.C37_gradX_scaled",
    "Mocat.Props.C37_gradX_partial",
    "Mocat.Props.C37_gradX_wrong",
    "Mocat.Props.C37_diagGradXY_partial",
    "Mocat.Props.C37_diagGradXY_wrong",
    "Mocat.Props.C37_values"
   ],
   "note": "False for grad_x with bandwidth other than 1 and for diag_grad_xy (C37_gradX_wrong, C37_diagGradXY_wrong)."
  },
  {
   "property": "C38",
   "status": "proved",
   "theorems": [
    "Mocat.Props.C38_resample",
    "Mocat.Props.C38_criterion",
    "Mocat.Props.C38_unbiased"
   ],
   "note": "M: SMC/EKI/SVGD step functions. P: invariants over runs; violation witnesses."
  },
  {
   "property": "C39",
   "status": "proved",
   "theorems": [
    "Mocat.Props.C39_schedule",
    "Mocat.Props.C39_adaptive",
    "Mocat.Props.C39_adaptive_chain"
   ],
   "note": "M: SMC/EKI/SVGD step functions. P: invariants over runs; violation witnesses."
  },
  {
   "property": "C40",
   "status": "partial",
   "theorems": [
    "Mocat.Props.C40_progress_partial",
    "Mocat.Props.C40_stalls",
    "Mocat.Props.C40_stalls_no_loss",
    "Mocat.Props.C40_stalls_iff",
    "Mocat.Props.C40_stalls_resampled_iff"
   ],
   "note": "False when reweighting to the maximal temperature would not lower the ESS, e.g. with equal likelihoods (C40_stalls, C40_stalls_no_loss). With enough iterations of the search these are the only stalls (C40_stalls_iff; after resampling C40_stalls_resampled_iff)."
  },
  {
   "property": "C41",
   "status": "proved",
   "theorems": [
    "Mocat.Props.C41_estimator",
    "Mocat.Props.C41_no_resampling",
    "Mocat.Props.C41_initial_weight",
    "Mocat.Props.C41_weight",
    "Mocat.Props.C41_weight_start"
   ],
   "note": "M: SMC/EKI/SVGD step functions. P: invariants over runs; violation witnesses."
  },
  {
   "property": "C42",
   "status": "proved",
   "theorems": [
    "Mocat.Props.C42_shared",
    "Mocat.Props.C42_randomWalk_tracks",
    "Mocat.Props.C42_consistent",
    "Mocat.Props.C42_underdamped_tracks"
   ],
   "note": "M: SMC/EKI/SVGD step functions. P: invariants over runs; violation witnesses."
  },
  {
   "property": "C43",
   "status": "proved",
   "theorems": [
    "Mocat.Props.C43_affine_span",
    "Mocat.Props.C43_chain"
   ],
   "note": "M: SMC/EKI/SVGD step functions. P: invariants over runs; violation witnesses."
  },
  {
   "property": "C44",
   "status": "proved",
   "theorems": [
    "Mocat.Props.C44_default",
    "Mocat.Props.C44_schedule",
    "Mocat.Props.C44_first_entry_skipped",
    "Mocat.Props.C44_adaptive"
   ],
   "note": "M: SMC/EKI/SVGD step functions. P: invariants over runs; violation witnesses."
  },
  {
   "property": "C45",
   "status": "proved",
   "theorems": [
    "Mocat.Props.C45_one_particle",
    "Mocat.Props.C45_gradient_descent",
    "Mocat.Props.C45_adagrad",
    "Mocat.Props.C45_default_bandwidth_one_particle",
    "Mocat.Props.C45_default_bandwidth",
    "Mocat.Props.C45_permutation",
    "Mocat.Props.C45_reuse"
   ],
   "note": "M: SMC/EKI/SVGD step functions. P: invariants over runs; violation witnesses."
  },
  {
   "property": "C46",
   "status": "partial",
   "theorems": [
    "Mocat.Props.C46_sum_partial",
    "Mocat.Props.C46_two_points"
   ],
   "note": "False for exactly two time points, where the code raises (C46_two_points). Proved for every other length."
  },
  {
   "property": "C47",
   "status": "proved",
   "theorems": [
    "Mocat.Props.C47_gradient"
   ],
   "note": "M: ssm package. P: induction over time; matrix algebra and products of normal densities for Kalman."
  },
  {
   "property": "C48",
   "status": "proved",
   "theorems": [
    "Mocat.Props.C48_simulate",
    "Mocat.Props.C48_keys"
   ],
   "note": "M: ssm package. P: induction over time; matrix algebra and products of normal densities for Kalman."
  },
  {
   "property": "C49",
   "status": "proved",
   "theorems": [
    "Mocat.Props.C49_aligned",
    "Mocat.Props.C49_from_start"
   ],
   "note": "M: ssm package. P: induction over time; matrix algebra and products of normal densities for Kalman."
  },
  {
   "property": "C50",
   "status": "proved",
   "theorems": [
    "Mocat.Props.C50_latest",
    "Mocat.Props.C50_y_record"
   ],
   "note": "M: ssm package. P: induction over time; matrix algebra and products of normal densities for Kalman."
  },
  {
   "property": "C51",
   "status": "partial",
   "theorems": [
    "Mocat.Props.C51_uses_complete",
    "Mocat.Props.C51_run_complete",
    "Mocat.Props.C51_reuse",
    "Mocat.Props.C51_partial"
   ],
   "note": "False within a step (C51_reuse): the key of a step is used twice. Proved: keys of different steps differ, and the list of uses is complete."
  },
  {
   "property": "C52",
   "status": "partial",
   "theorems": [
    "Mocat.Props.C52_bootstrap",
    "Mocat.Props.C52_optimal_proposal",
    "Mocat.Props.C52_optimal_weight",
    "Mocat.Props.C52_optimal_partial",
    "Mocat.Props.C52_optimal_fails"
   ],
   "note": "False for the optimal filter with non-diagonal covariances (C52_optimal_fails). Proved for the bootstrap filter, and for the optimal filter whenever the factors commute with their transposes."
  },
  {
   "property": "C53",
   "status": "proved",
   "theorems": [
    "Mocat.Props.C53_steps",
    "Mocat.Props.C53_membership",
    "Mocat.Props.C53_full_weights"
   ],
   "note": "M: ssm package. P: induction over time; matrix algebra and products of normal densities for Kalman."
  },
  {
   "property": "C54",
   "status": "proved",
   "theorems": [
    "Mocat.Props.C54_bounded",
    "Mocat.Props.C54_round",
    "Mocat.Props.C54_accepted",
    "Mocat.Props.C54_result"
   ],
   "note": "M: ssm package. P: induction over time; matrix algebra and products of normal densities for Kalman."
  },
  {
   "property": "C55",
   "status": "proved",
   "theorems": [
    "Mocat.Props.C55_start",
    "Mocat.Props.C55_call",
    "Mocat.Props.C55_frozen",
    "Mocat.Props.C55_trajectories_pf",
    "Mocat.Props.C55_trajectories_bs"
   ],
   "note": "M: ssm package. P: induction over time; matrix algebra and products of normal densities for Kalman."
  },
  {
   "property": "C56",
   "status": "partial",
   "theorems": [
    "Mocat.Props.C56_zero_call",
    "Mocat.Props.C56_fails_ignores_observations",
    "Mocat.Props.C56_fails_backward",
    "Mocat.Props.C56_partial"
   ],
   "note": "False for lag 0 (C56_fails_ignores_observations, C56_fails_backward): observations play no part. Proved: what a call with lag 0 does (C56_zero_call), and that ensembles are proposed one from another as in a filter."
  },
  {
   "property": "C57",
   "status": "proved",
   "theorems": [
    "Mocat.Props.C57_update",
    "Mocat.Props.C57_step",
    "Mocat.Props.C57_filter",
    "Mocat.Props.C57_symmetric",
    "Mocat.Props.C57_homogenous",
    "Mocat.Props.C57_gain"
   ],
   "note": "M: ssm package. P: induction over time; matrix algebra and products of normal densities for Kalman."
  },
  {
   "property": "C58",
   "status": "partial",
   "theorems": [
    "Mocat.Props.C58_iff",
    "Mocat.Props.C58_partial",
    "Mocat.Props.C58_fails"
   ],
   "note": "False unless the initial covariance factor is the identity (C58_fails, C58_iff)."
  },
  {
   "property": "C59",
   "status": "partial",
   "theorems": [
    "Mocat.Props.C59_smoother",
    "Mocat.Props.C59_lag_one_aux",
    "Mocat.Props.C59_lag_one_error",
    "Mocat.Props.C59_lag_one_partial",
    "Mocat.Props.C59_lag_one_fails"
   ],
   "note": "Means and covariances proved in full (C59_smoother). The lag-one moment is wrong in the code (C59_lag_one_fails); C59_lag_one_error gives the error exactly."
  },
  {
   "property": "C60",
   "status": "proved",
   "theorems": [
    "Mocat.Props.C60_run_length",
    "Mocat.Props.C60_vanilla",
    "Mocat.Props.C60_importance",
    "Mocat.Props.C60_importance_ratio"
   ],
   "note": "M: abc package and its scenarios. P: order statistics, invariants over event histories, changes of variables."
  },
  {
   "property": "C61",
   "status": "proved",
   "theorems": [
    "Mocat.Props.C61_at_most",
    "Mocat.Props.C61_exact",
    "Mocat.Props.C61_closest",
    "Mocat.Props.C61_ties"
   ],
   "note": "M: abc package and its scenarios. P: order statistics, invariants over event histories, changes of variables."
  },
  {
   "property": "C62",
   "status": "proved",
   "theorems": [
    "Mocat.Props.C62_step",
    "Mocat.Props.C62_stays_in_ball",
    "Mocat.Props.C62_outside_start",
    "Mocat.Props.C62_genuine",
    "Mocat.Props.C62_alpha_range"
   ],
   "note": "M: abc package and its scenarios. P: order statistics, invariants over event histories, changes of variables."
  },
  {
   "property": "C63",
   "status": "proved",
   "theorems": [
    "Mocat.Props.C63_adaptive",
    "Mocat.Props.C63_schedule",
    "Mocat.Props.C63_dead_fixed",
    "Mocat.Props.C63_resample_live",
    "Mocat.Props.C63_threshold_step",
    "Mocat.Props.C63_threshold_monotone",
    "Mocat.Props.C63_threshold_can_increase",
    "Mocat.Props.C63_set_schedule",
    "Mocat.Props.C63_stepsize"
   ],
   "note": "M: abc package and its scenarios. P: order statistics, invariants over event histories, changes of variables."
  },
  {
   "property": "C64",
   "status": "proved",
   "theorems": [
    "Mocat.Props.C64_positive",
    "Mocat.Props.C64_startup",
    "Mocat.Props.C64_run",
    "Mocat.Props.C64_rule",
    "Mocat.Props.C64_threshold"
   ],
   "note": "M: abc package and its scenarios. P: order statistics, invariants over event histories, changes of variables."
  },
  {
   "property": "C65",
   "status": "proved",
   "theorems": [
    "Mocat.Props.C65_sir",
    "Mocat.Props.C65_monotone"
   ],
   "note": "M: abc package and its scenarios. P: order statistics, invariants over event histories, changes of variables."
  },
  {
   "property": "C66",
   "status": "partial",
   "theorems": [
    "Mocat.Props.C66_waiting_partial",
    "Mocat.Props.C66_prior_partial",
    "Mocat.Props.C66_fails",
    "Mocat.Props.C66_law",
    "Mocat.Props.C66_bounded",
    "Mocat.Props.C66_no_hazard"
   ],
   "note": "False for uniforms above 1 - 1e-6 (C66_fails). The range in which it holds is exact (iff), and C66_law gives the law of the draws."
  },
  {
   "property": "C67",
   "status": "proved",
   "theorems": [
    "Mocat.Props.C67_exp_inverse",
    "Mocat.Props.C67_exp_potential",
    "Mocat.Props.C67_exp_change",
    "Mocat.Props.C67_exp_sample",
    "Mocat.Props.C67_gk_inverse",
    "Mocat.Props.C67_gk_change",
    "Mocat.Props.C67_gk_sample",
    "Mocat.Props.C67_gk_data"
   ],
   "note": "M: abc package and its scenarios. P: order statistics, invariants over event histories, changes of variables."
  },
  {
   "property": "C68",
   "status": "partial",
   "theorems": [
    "Mocat.Props.C68_component",
    "Mocat.Props.C68_exact",
    "Mocat.Props.C68_mass",
    "Mocat.Props.C68_mixture_partial",
    "Mocat.Props.C68_common_det_partial",
    "Mocat.Props.C68_default",
    "Mocat.Props.C68_fails_det",
    "Mocat.Props.C68_fails_weights",
    "Mocat.Props.C68_fails_shape"
   ],
   "note": "False for general covariances (C68_fails_det, C68_fails_weights, C68_fails_shape). C68_exact says what density the code has, for all inputs."
  },
  {
   "property": "C69",
   "status": "partial",
   "theorems": [
    "Mocat.Props.C69_padding_pairs_partial",
    "Mocat.Props.C69_padding_damps"
   ],
   "note": "False for the damping constant (C69_padding_damps). Proved for the factors."
  },
  {
   "property": "C70",
   "status": "proved",
   "theorems": [
    "Mocat.Props.C70_involution",
    "Mocat.Props.C70_volume",
    "Mocat.Props.C70_refresh",
    "Mocat.Props.C70_accept_invariant"
   ],
   "note": "M: quasi-Newton sampler. P: invariants over histories; measure theory for a fixed memory."
  },
  {
   "property": "C71",
   "status": "partial",
   "theorems": [
    "Mocat.Props.C71_gradX",
    "Mocat.Props.C71_gradY",
    "Mocat.Props.C71_diag_partial",
    "Mocat.Props.C71_diag_wrong"
   ],
   "note": "grad_x, grad_y proved in full. diag_grad_xy false in dimension 2 (C71_diag_wrong), proved in dimension 1."
  },
  {
   "property": "C72",
   "status": "proved",
   "theorems": [
    "Mocat.Props.C72_shift",
    "Mocat.Props.C72_equal",
    "Mocat.Props.C72_full_batch",
    "Mocat.Props.C72_perm"
   ],
   "note": "M: preconditioned kernel, kernelised Stein discrepancy. P: derivatives, finite sums."
  },
  {
   "property": "C73",
   "status": "partial",
   "theorems": [
    "Mocat.Props.C73_fails",
    "Mocat.Props.C73_partial"
   ],
   "note": "False for backward_sim with lag 1 (C73_fails). Proved for lag two or more."
  },
  {
   "property": "C74",
   "status": "partial",
   "theorems": [
    "Mocat.Props.C74_consistent",
    "Mocat.Props.C74_partial",
    "Mocat.Props.C74_fails"
   ],
   "note": "False for non-diagonal initial covariances (C74_fails). Proved when the factor commutes with its transpose."
  },
  {
   "property": "C75",
   "status": "proved",
   "theorems": [
    "Mocat.Props.C75_span",
    "Mocat.Props.C75_linear_invariant",
    "Mocat.Props.C75_gain"
   ],
   "note": "M: ssm package. P: induction over time; matrix algebra and products of normal densities for Kalman."
  },
  {
   "property": "C76",
   "status": "partial",
   "theorems": [
    "Mocat.Props.C76_observations_partial",
    "Mocat.Props.C76_prey_partial",
    "Mocat.Props.C76_prey_transformed_partial",
    "Mocat.Props.C76_truncated_fails"
   ],
   "note": "False when max_iter is used up (C76_truncated_fails). Proved otherwise, for uniforms below 1 - 1e-6."
  },
  {
   "property": "C77",
   "status": "partial",
   "theorems": [
    "Mocat.Props.C77_only_a_partial",
    "Mocat.Props.C77_only_a_iff",
    "Mocat.Props.C77_fails",
    "Mocat.Props.C77_only_a_transformed"
   ],
   "note": "False unless c = k (C77_fails, C77_only_a_iff)."
  },
  {
   "property": "C78",
   "status": "partial",
   "theorems": [
    "Mocat.Props.C78_banana",
    "Mocat.Props.C78_funnel_partial",
    "Mocat.Props.C78_funnel_fails"
   ],
   "note": "Banana proved in full. Funnel false (C78_funnel_fails): C78_funnel_partial says which law the code has."
  },
  {
   "property": "C79",
   "status": "proved",
   "theorems": [
    "Mocat.Props.C79_doubleWell_min",
    "Mocat.Props.C79_rastrigin_min",
    "Mocat.Props.C79_doubleWell_proper",
    "Mocat.Props.C79_rastrigin_proper"
   ],
   "note": "M: toy scenarios. P: Gaussian integrals, changes of variables, algebra."
  },
  {
   "property": "C80",
   "status": "partial",
   "theorems": [
    "Mocat.Props.C80_initial",
    "Mocat.Props.C80_transition",
    "Mocat.Props.C80_transition_partial",
    "Mocat.Props.C80_transition_fails",
    "Mocat.Props.C80_likelihood",
    "Mocat.Props.C80_default_likelihood_mass",
    "Mocat.Props.C80_default_likelihood_fails",
    "Mocat.Props.C80_default_sample"
   ],
   "note": "False for transitions over steps other than 1 and for the default observation covariance (C80_transition_fails, C80_default_likelihood_fails). Proved otherwise."
  },
  {
   "property": "C81",
   "status": "proved",
   "theorems": [
    "Mocat.Props.C81_nonlinear1d"
   ],
   "note": "M: state-space scenarios. P: laws of affine images of normals; energy argument for Lorenz 96."
  },
  {
   "property": "C82",
   "status": "proved",
   "theorems": [
    "Mocat.Props.C82_equivariant",
    "Mocat.Props.C82_energy",
    "Mocat.Props.C82_dissipative",
    "Mocat.Props.C82_lorenz63",
    "Mocat.Props.C82_transition_bounded"
   ],
   "note": "M: state-space scenarios. P: laws of affine images of normals; energy argument for Lorenz 96."
  },
  {
   "property": "C83",
   "status": "partial",
   "theorems": [
    "Mocat.Props.C83_exact_partial",
    "Mocat.Props.C83_full",
    "Mocat.Props.C83_fails_default_bound"
   ],
   "note": "False for the default bound parameter (C83_fails_default_bound). Proved for full resampling and for valid bounds."
  },
  {
   "property": "C84",
   "status": "proved",
   "theorems": [
    "Mocat.Props.C84_law"
   ],
   "note": "M: `Model/Backward`, with an ideal generator (`Spec/Tape`: a product measure over all keys and positions). P: with a dominating bound the loop decouples into particles; each attempt keeps the target law (induction on the attempts left); draws from disjoint keys are independent; induction over time for trajectories. Counterexample for the default bound."
  },
  {
   "property": "C85",
   "status": "partial",
   "theorems": [
    "Mocat.Props.C85_unbiased",
    "Mocat.Props.C85_norm",
    "Mocat.Props.C85_underdamped_partial",
    "Mocat.Props.C85_fails_finite_friction"
   ],
   "note": "Proved for RandomWalk and for Underdamped with infinite friction; false for finite friction (C85_fails_finite_friction)."
  },
  {
   "property": "C86",
   "status": "proved",
   "theorems": [
    "Mocat.Props.C86_proper",
    "Mocat.Props.C86_bootstrap",
    "Mocat.Props.C86_likelihood",
    "Mocat.Props.C86_nonlinear_gaussian",
    "Mocat.Props.C86_optimal"
   ],
   "note": "M: `Model/Filtering` (`run`), `Model/NonlinearGaussian`, ideal generator. S: likelihood estimate formed from the reported log weights and ESS; path expectation under the model. P: one filter step maps a weighted estimate of the function integrated against the weighted transition to one of the function itself (same lemma as C85, `Lemmas/SmcLaw`); induction over observations; instances: bootstrap (any model), optimal filter (via C52)."
  },
  {
   "property": "C87",
   "status": "proved",
   "theorems": [
    "Mocat.Props.C87_invariant",
    "Mocat.Props.C87_marginal"
   ],
   "note": "M: `Model/Abc` (`RandomWalkABC` update) on the ideal generator, simulators as measurable functions of state and the randomness below their key (`Lemmas/Subtape`). S: law of prior and simulated data restricted to the ball of the distance. P: update = tape step; joint law of (walk, data) symmetric under exchange with the current pair (Fubini, symmetry of the normal walk); Metropolis lemma; induction over updates."
  },
  {
   "property": "C88",
   "status": "partial",
   "theorems": [
    "Mocat.Props.C88_rows",
    "Mocat.Props.C88_vanilla",
    "Mocat.Props.C88_importance_partial",
    "Mocat.Props.C88_importance_fails"
   ],
   "note": "Proved for VanillaABC and for all rows of ImportanceABC but the first; false for the first (C88_importance_fails)."
  },
  {
   "property": "C89",
   "status": "partial",
   "theorems": [
    "Mocat.Props.C89_stein_partial",
    "Mocat.Props.C89_nonneg",
    "Mocat.Props.C89_batch_negative",
    "Mocat.Props.C89_mean_partial",
    "Mocat.Props.C89_fails"
   ],
   "note": "The Stein identity and mean square are proved for the gradient of the log density; false for the gradients stored in a sample (C89_fails). Non-negativity proved without minibatches, false with them (C89_batch_negative)."
  },
  {
   "property": "C90",
   "status": "proved",
   "theorems": [
    "Mocat.Props.C90_value",
    "Mocat.Props.C90_zero_iff",
    "Mocat.Props.C90_affine",
    "Mocat.Props.C90_reverse"
   ],
   "note": "M: `Model/Metrics.squaredJumpingDistance`. P: lists, finite sums."
  },
  {
   "property": "C91",
   "status": "proved",
   "theorems": [
    "Mocat.Props.C91_proper",
    "Mocat.Props.C91_bootstrap",
    "Mocat.Props.C91_nonlinear_gaussian"
   ],
   "note": "M: `Model/Backward.ffbsi` (filter, then backward simulation), ideal generator. S: `smoothingExpectation`, the expectation under the model of a function of the whole path times the likelihoods, by recursion over the observations. P: the history of the filter is kept as a random array; backward simulation given the history is a finite sum over ancestor choices with probabilities proportional to weight \u00d7 transition density (C83, C84); one filter step carries the weighted path estimate one observation forward (extends C86); induction over observations. Instances: bootstrap filter of any model, nonlinear Gaussian models."
  },
  {
   "property": "C92",
   "status": "proved",
   "theorems": [
    "Mocat.Props.C92_update",
    "Mocat.Props.C92_tempered",
    "Mocat.Props.C92_posterior",
    "Mocat.Props.C92_ensemble",
    "Mocat.Props.C92_moments"
   ],
   "note": "M: `Model/Teki.memberUpdate`, `update` (the row operation of `TemperedEKI.update`). S: `Spec/Eki`: `tempered \u03bc \u03c6 T` (density `exp(-T \u03c6)` against `\u03bc`), `covMatrix`, `sampleCov`, `misfit`. P: `meanField` runs the model's own `memberUpdate` with the covariances of the law of the members in place of the sample covariances; the law is found by characteristic functions (`Lemmas/GaussChar`): a Gaussian goes to the Gaussian with Kalman mean and covariance, which by `gauss_bayes` is the one tempered by `T' - T`; induction over the schedule. Finite ensembles: matrix algebra of sample covariances. Assumes nugget 0 (the default 1e-5 changes the targeted law) and that `inv`, `cholesky` are right on positive definite matrices; convergence of a finite random ensemble to the limit is C126."
  },
  {
   "property": "C93",
   "status": "proved",
   "theorems": [
    "Mocat.Props.C93_chain",
    "Mocat.Props.C93_data",
    "Mocat.Props.C93_run",
    "Mocat.Props.C93_run_given",
    "Mocat.Props.C93_startup"
   ],
   "note": "M: `Model/Teki.startup`, `update`, `nextTemperature` on an ideal generator (`tekiEnv`: keys split by path, normals and simulators read from the tape). S: `stages`, the expectation over independent perturbations and data drawn at the new values, by recursion over stages. P: an update is a function of the draws of its key (`tekiStep`), the draws are independent of everything below the next key (`draws_teki`), then the generic chain law `lintegral_tapeIter`. Assumes measurability of `inv`, `cholesky` and the simulator. Not: the adaptive temperatures (they depend on the ensemble)."
  },
  {
   "property": "C94",
   "status": "proved",
   "theorems": [
    "Mocat.Props.C94_rejection",
    "Mocat.Props.C94_cost",
    "Mocat.Props.C94_backward",
    "Mocat.Props.C94_backward_cost",
    "Mocat.Props.C94_stitching",
    "Mocat.Props.C94_online",
    "Mocat.Props.C94_session"
   ],
   "note": "M: `Model/Backward.rejection`, `backwardSimulation`, `Model/OnlineSmoothing.propagateSmoother`. S: `Agree Q f g` (equal at the listed arguments); the claim is the existence of a list of arguments whose length is the reported count and which determines the result. P: induction on the rejection loop, then on the scan over times."
  },
  {
   "property": "C95",
   "status": "proved",
   "theorems": [
    "Mocat.Props.C95_ensemble",
    "Mocat.Props.C95_recorded",
    "Mocat.Props.C95_stepsize",
    "Mocat.Props.C95_positive",
    "Mocat.Props.C95_direction",
    "Mocat.Props.C95_bounded",
    "Mocat.Props.C95_used",
    "Mocat.Props.C95_chain"
   ],
   "note": "M: `Model/SmcMore.rmAdapt`, `rmUpdate`, `rmStartup`, `rmRunFrom` on top of `Model/Smc`. S: `meanAcceptance` (average under normalised weights), `Tune` (lens to the tuned parameter), `forced` (inner sampler made to use a given stepsize), both contracts (`Accepts`, `KeepsParams`) proved for `RandomWalk` and `Underdamped`. P: induction on updates."
  },
  {
   "property": "C96",
   "status": "partial",
   "theorems": [
    "Mocat.Props.C96_underdamped_partial",
    "Mocat.Props.C96_randomWalk_stale",
    "Mocat.Props.C96_randomWalk_fails"
   ],
   "note": "Proved for Underdamped; false for RandomWalk (C96_randomWalk_fails, C96_randomWalk_stale)."
  },
  {
   "property": "C97",
   "status": "proved",
   "theorems": [
    "Mocat.Props.C97_moved",
    "Mocat.Props.C97_alpha_mean",
    "Mocat.Props.C97_alpha_start",
    "Mocat.Props.C97_stops",
    "Mocat.Props.C97_stepsize"
   ],
   "note": "M: `Model/AbcSmc.adapt`, `forwardLive`, `terminated`, `run`, `scaledDiagCov`. S: `innerChain` (iterates of the inner update), plain means over the particles with weight, variance over all pairs. P: the run law C12 and induction on updates."
  },
  {
   "property": "C98",
   "status": "partial",
   "theorems": [
    "Mocat.Props.C98_unbiased_partial",
    "Mocat.Props.C98_run_partial",
    "Mocat.Props.C98_evidence_partial",
    "Mocat.Props.C98_fails_atoms"
   ],
   "note": "Proved for thresholds that are hit with probability zero; false otherwise (C98_fails_atoms). Adaptive thresholds and stepsizes are not covered."
  },
  {
   "property": "C99",
   "status": "partial",
   "theorems": [
    "Mocat.Props.C99_used_partial",
    "Mocat.Props.C99_summary",
    "Mocat.Props.C99_summary_partial",
    "Mocat.Props.C99_sticky",
    "Mocat.Props.C99_fails_summary_later",
    "Mocat.Props.C99_fails_summary_extra",
    "Mocat.Props.C99_fails_reused_extra"
   ],
   "note": "Proved for extras not used before and samplers not run again; false otherwise (C99_fails_*). C99_sticky says what a reused extra does."
  },
  {
   "property": "C100",
   "status": "partial",
   "theorems": [
    "Mocat.Props.C100_always_fresh",
    "Mocat.Props.C100_qn_partial",
    "Mocat.Props.C100_fails_new_value",
    "Mocat.Props.C100_fails_new_scenario"
   ],
   "note": "Proved for RandomWalk and Underdamped; for QNUnderdamped false when a state object is reused with a new value or scenario (C100_fails_*)."
  },
  {
   "property": "C101",
   "status": "partial",
   "theorems": [
    "Mocat.Props.C101_dimension",
    "Mocat.Props.C101_floats",
    "Mocat.Props.C101_simulation",
    "Mocat.Props.C101_posterior_partial",
    "Mocat.Props.C101_fails_matrix",
    "Mocat.Props.C101_fails_evidence",
    "Mocat.Props.C101_fails_vector"
   ],
   "note": "Proved for float and diagonal covariances; false for full matrices, vector covariances and the default data (C101_fails_*)."
  },
  {
   "property": "C102",
   "status": "proved",
   "theorems": [
    "Mocat.Props.C102_limit",
    "Mocat.Props.C102_linear_gaussian"
   ],
   "note": "M: `distanceFunction` in `Model/Abc`, the ABC posterior `abcTarget` of C87. S: `exactInt`, `SimDensity`. P: averages over shrinking Euclidean balls converge, dominated convergence over the prior."
  },
  {
   "property": "C103",
   "status": "proved",
   "theorems": [
    "Mocat.Props.C103_which",
    "Mocat.Props.C103_settings",
    "Mocat.Props.C103_defaults",
    "Mocat.Props.C103_rule",
    "Mocat.Props.C103_not_shared",
    "Mocat.Props.C103_fails_after_error",
    "Mocat.Props.C103_method_keyword",
    "Mocat.Props.C103_method_keyword_rm"
   ],
   "note": "M: `Model/Corrections` (`World`, `exec`: samplers' `correction` attributes and correction objects as numbered objects; the keyword is stored before it is checked). S: `inForce`, `lastSetting`, `Known`. P: induction over the list of calls. Not: the `super_correction` of `RMMetropolis`, `log_update` values other than booleans."
  },
  {
   "property": "C104",
   "status": "partial",
   "theorems": [
    "Mocat.Props.C104_underdamped_partial",
    "Mocat.Props.C104_fails_leapfrog",
    "Mocat.Props.C104_rm_start",
    "Mocat.Props.C104_rm_partial",
    "Mocat.Props.C104_fails_rm"
   ],
   "note": "Proved except for values given in initial_extra for leapfrog_steps, and for the tuned parameter while the sampler's own is None; there it is false (C104_fails_leapfrog, C104_fails_rm). C104_rm_start is exact."
  },
  {
   "property": "C105",
   "status": "partial",
   "theorems": [
    "Mocat.Props.C105_gradients_partial",
    "Mocat.Props.C105_likelihood_both",
    "Mocat.Props.C105_fails_likelihood",
    "Mocat.Props.C105_fails_reassigned",
    "Mocat.Props.C105_fails_own"
   ],
   "note": "Proved for the gradients of potentials that are not reassigned, and for value-and-gradient of the initial and transition potentials. The rest is false: C105_fails_likelihood, C105_fails_reassigned, C105_fails_own."
  },
  {
   "property": "C106",
   "status": "partial",
   "theorems": [
    "Mocat.Props.C106_same_scenario_partial",
    "Mocat.Props.C106_fails_new_value",
    "Mocat.Props.C106_fails_new_data",
    "Mocat.Props.C106_fails_schedule"
   ],
   "note": "Proved for any sequence of runs by any of these samplers on one scenario with one first threshold, from an object that began with a value only. False once the value, the scenario's data or the first threshold change: C106_fails_new_value, C106_fails_new_data, C106_fails_schedule."
  },
  {
   "property": "C107",
   "status": "partial",
   "theorems": [
    "Mocat.Props.C107_stop_partial",
    "Mocat.Props.C107_fails_constrained"
   ],
   "note": "Proved for scenarios without constrain. With constrain it is false: the constrained ensemble is compared with the unconstrained initial one, so a run may stop before its first update (C107_fails_constrained)."
  },
  {
   "property": "C108",
   "status": "proved",
   "theorems": [
    "Mocat.Props.C108_mean",
    "Mocat.Props.C108_norm",
    "Mocat.Props.C108_underdamped"
   ],
   "note": "M: as C85. S: `smcMean` (weights from log weights), `temperedMean`. P: second moments of weighted estimates: a resampling or reweighting step adds at most a multiple of 1/n (`Lemmas/SmcVariance`), unbiasedness from C85, Chebyshev for numerator and denominator. Not: adaptive schedules; finite friction (false already for the mean, C85)."
  },
  {
   "property": "C109",
   "status": "proved",
   "theorems": [
    "Mocat.Props.C109_bootstrap",
    "Mocat.Props.C109_nonlinear_gaussian",
    "Mocat.Props.C109_optimal"
   ],
   "note": "M: as C86. S: `filterMean`, `filteringLaw` (predict, update). P: as C108, by induction over observations."
  },
  {
   "property": "C110",
   "status": "proved",
   "theorems": [
    "Mocat.Props.C110_randomWalk"
   ],
   "note": "M: as C16 on a tape, whole runs. S: `rowMean`, `meanUnder`. P: the accepted moves from any point and the target have the same null sets, so only constants are fixed by the transition operator; von Neumann's mean ergodic theorem on L2, with the operator built from the two coordinate maps of the stationary pair; truncation for integrable quantities; one accepted move for other starts."
  },
  {
   "property": "C111",
   "status": "partial",
   "theorems": [
    "Mocat.Props.C111_one_step_partial",
    "Mocat.Props.C111_fails_two_steps",
    "Mocat.Props.C111_fails",
    "Mocat.Props.C111_friction_partial"
   ],
   "note": "Proved for one leapfrog step (the default) and positive or infinite friction. With two leapfrog steps it is false (C111_fails_two_steps, C111_fails)."
  },
  {
   "property": "C112",
   "status": "proved",
   "theorems": [
    "Mocat.Props.C112_abc"
   ],
   "note": "M: as C87, whole runs. S: `rowMean`, `meanUnder`, `abcTarget`. P: as C110 on parameter and data."
  },
  {
   "property": "C113",
   "status": "proved",
   "theorems": [
    "Mocat.Props.C113_randomWalk"
   ],
   "note": "M: as C110. S: `rowProb`, `probUnder`. P: detailed balance makes the transition operator on L2 symmetric; even powers of a symmetric contraction converge, and what they converge to is fixed by the square, hence constant; densities approximated by bounded ones give the limit uniformly over events from starts with a density; one accepted move gives it from a point."
  },
  {
   "property": "C114",
   "status": "partial",
   "theorems": [
    "Mocat.Props.C114_one_step_partial",
    "Mocat.Props.C114_fails_two_steps",
    "Mocat.Props.C114_friction_partial"
   ],
   "note": "Proved for one leapfrog step (the default) and positive or infinite friction. With two leapfrog steps it is false (C114_fails_two_steps)."
  },
  {
   "property": "C115",
   "status": "proved",
   "theorems": [
    "Mocat.Props.C115_abc"
   ],
   "note": "M: as C112. S: as C113. P: as C113 on parameter and data."
  },
  {
   "property": "C116",
   "status": "proved",
   "theorems": [
    "Mocat.Props.C116_randomWalk",
    "Mocat.Props.C116_one_step",
    "Mocat.Props.C116_abc",
    "Mocat.Props.C116_friction"
   ],
   "note": "M: as C113 to C115, runs of two rows. S: `probUnder`. P: convergence from every point and dominated convergence."
  },
  {
   "property": "C117",
   "status": "partial",
   "theorems": [
    "Mocat.Props.C117_limits_partial",
    "Mocat.Props.C117_returns_partial",
    "Mocat.Props.C117_fails_margin",
    "Mocat.Props.C117_fails_flat",
    "Mocat.Props.C117_fails_zero",
    "Mocat.Props.C117_plot",
    "Mocat.Props.C117_plot_keeps",
    "Mocat.Props.C117_plot_axes",
    "Mocat.Props.C117_plot_given",
    "Mocat.Props.C117_plot_one_axis"
   ],
   "note": "Proved: whenever auto_axes_lims ends, the limits contain every grid point above a tenth of the maximum and lie strictly inside the grid; it ends at once when the first grid holds the mass. False of the code: no margin (C117_fails_margin), endless recursion for flat or zero densities (C117_fails_flat, C117_fails_zero), first limits kept after a change of potential (C117_plot_keeps)."
  },
  {
   "property": "C118",
   "status": "partial",
   "theorems": [
    "Mocat.Props.C118_own_kernel_partial",
    "Mocat.Props.C118_default_kernel",
    "Mocat.Props.C118_fails_ignored",
    "Mocat.Props.C118_fails_shared"
   ],
   "note": "Proved for samplers given a kernel whose parameter object no kernel-less sampler ran with, and for all kernel-less samplers. False of the code otherwise: C118_fails_ignored, C118_fails_shared."
  },
  {
   "property": "C119",
   "status": "proved",
   "theorems": [
    "Mocat.Props.C119_sir",
    "Mocat.Props.C119_sir_transformed",
    "Mocat.Props.C119_lotka_volterra"
   ],
   "note": "M: `Model/AbcScenarios` (`jump`, `sirTimesAndSi`, `transformedSirTimesAndSi`) on the ideal tape. S: `sirRate`, `lvRate`, `jumpProb` (product of transition probabilities and `expMeasure`), `IsChoice`. P: the sites of different events are different, so events are independent; each event's law by `-log` of a uniform draw, rotated by the offset (Lemmas/ExpDraw)."
  },
  {
   "property": "C120",
   "status": "partial",
   "theorems": [
    "Mocat.Props.C120_exponential_partial",
    "Mocat.Props.C120_fails_negative",
    "Mocat.Props.C120_transformed",
    "Mocat.Props.C120_gk_uniform",
    "Mocat.Props.C120_gk_transformed"
   ],
   "note": "Proved for g-and-k and for the transformed SIR and Lotka-Volterra scenarios; for the untransformed ones only with the density restricted to positive parameters, because exp(-prior_potential) has infinite mass: C120_fails_negative."
  },
  {
   "property": "C121",
   "status": "proved",
   "theorems": [
    "Mocat.Props.C121_path",
    "Mocat.Props.C121_bounds",
    "Mocat.Props.C121_extinct",
    "Mocat.Props.C121_counts",
    "Mocat.Props.C121_data",
    "Mocat.Props.C121_law"
   ],
   "note": "M: `rickerSimulate`, `rickerLikelihoodSample` in `Model/AbcScenarios`, for a float `initial_n` and non-negative observation indices. S: `rickerPath`, `poissonMass`, `IsPoissonDraw` (a draw may be negative where it should be 0, as JAX's can). P: induction over steps; independence of the keys of the path and of the observations."
  },
  {
   "property": "C122",
   "status": "proved",
   "theorems": [
    "Mocat.Props.C122_full_data",
    "Mocat.Props.C122_full_data_transformed",
    "Mocat.Props.C122_likelihood_sample"
   ],
   "note": "M: `gkFullData`, `gkTransformedFullData`, `gkLikelihoodSample`. S: `gAndK` (the textbook formula with tanh). P: the normal distribution function at a normal draw is uniform; uniforms on (buffer, 1 - buffer) have density at most (1 - 2 buffer)^-n with respect to uniforms on (0, 1)."
  },
  {
   "property": "C123",
   "status": "proved",
   "theorems": [
    "Mocat.Props.C123_mean",
    "Mocat.Props.C123_evidence",
    "Mocat.Props.C123_alive"
   ],
   "note": "M: as C98. S: `abcMean` (mean over the particles with weight), `abcPosteriorMean` (conditional expectation). P: second moments of the alive-particle estimates grow by at most 1/n per update (`Lemmas/AliveVariance`), unbiasedness from C98, independence of the initial particles from their keys, Chebyshev for numerator and denominator. Not: adaptive thresholds and stepsizes; thresholds hit with positive probability (biased, C98)."
  },
  {
   "property": "C124",
   "status": "proved",
   "theorems": [
    "Mocat.Props.C124_run",
    "Mocat.Props.C124_propagate"
   ],
   "note": "M: `EnsembleFilter.VecFilter`, `run`, `propagate`, `ensembleKalman` (runs of filters that override the vectorised methods; `run_ofFilter`: the same as `Filtering.run` for filters that do not). S: `enkfEnsembles`, a plain recursion of the update `enkf`. P: induction over observations; the ESS of equal weights is the number of particles (C33). Not: thresholds above 1, with which the code resamples equal weights at each step."
  },
  {
   "property": "C125",
   "status": "partial",
   "theorems": [
    "Mocat.Props.C125_kalman_partial",
    "Mocat.Props.C125_recursion",
    "Mocat.Props.C125_fails"
   ],
   "note": "False when the initial covariance is not diagonal, because the first draw has the wrong covariance (C125_fails, from C74). Proved when the factors commute with their transposes; for other covariances the limit is the Kalman filter started from the law of the first draw (C125_recursion)."
  },
  {
   "property": "C126",
   "status": "partial",
   "theorems": [
    "Mocat.Props.C126_temperatures",
    "Mocat.Props.C126_recursion",
    "Mocat.Props.C126_schedule_partial",
    "Mocat.Props.C126_default_partial",
    "Mocat.Props.C126_fails"
   ],
   "note": "False with a positive nugget, so with the default 1e-5: the limit is then another mean (C126_fails). Proved for nugget 0 (C126_schedule_partial, C126_default_partial); for any nugget the limit is the recursion in C126_recursion."
  },
  {
   "property": "C127",
   "status": "proved",
   "theorems": [
    "Mocat.Props.C127_shared_key",
    "Mocat.Props.C127_unbiased",
    "Mocat.Props.C127_consistent",
    "Mocat.Props.C127_posterior"
   ],
   "note": "M: `EnsembleFilter.run`, `EnsembleFilter.optimal` (the vectorised methods), on a tape. S: `filteringLaw`, `pathExpectation`, `likelihoodEstimate`, `filterMean` (as C86, C109). P: `C127_shared_key` (a measure preserving rearrangement of the tape turns a run of the vectorised filter into a run with a key for each particle), `C127_unbiased`, `C127_consistent`, `C127_posterior` (exact first draws). Not: `jax.random`'s actual bits; models where the first draws are not exact have the limit started from the law of the first draws (C74)."
  },
  {
   "property": "C128",
   "status": "proved",
   "theorems": [
    "Mocat.Props.C128_continuous",
    "Mocat.Props.C128_small",
    "Mocat.Props.C128_large",
    "Mocat.Props.C128_attained",
    "Mocat.Props.C128_drift",
    "Mocat.Props.C128_adapts",
    "Mocat.Props.C128_leapfrog_continuous",
    "Mocat.Props.C128_leapfrog_small",
    "Mocat.Props.C128_leapfrog_attained"
   ],
   "note": "M: the updates of `RandomWalk` and `Underdamped` with `Metropolis` and `RMMetropolis` on an ideal tape (C16, C19, C23). S: `rwRate`, `udRate`, `rwDrift`: means of the recorded `alpha`, and of the change of the log stepsize, over the posterior and the draws. P: the rate is the mean mass the density shares with its translate by a normal step; translation is continuous in L1 and moves all mass away; dominated convergence and the intermediate value theorem. For leapfrog the acceptance probability is continuous in the stepsize and one at zero. Not: convergence of the adapted stepsizes, behaviour of leapfrog at large stepsizes, stepsizes before adaptation is on."
  },
  {
   "property": "C129",
   "status": "partial",
   "theorems": [
    "Mocat.Props.C129_clean",
    "Mocat.Props.C129_point",
    "Mocat.Props.C129_potential_partial",
    "Mocat.Props.C129_doubleWell",
    "Mocat.Props.C129_fails_sum",
    "Mocat.Props.C129_fails_assigned"
   ],
   "note": "M: `OneDim.clean`, `OneDim.construct`, `Scen.potential`, `Scen.setLik`: arrays are a shape and row-major entries. S: `RowWise`, `Values`. P: `C129_clean`, `C129_point`, `C129_potential_partial`, `C129_doubleWell` (the library's double well is row-wise). Fails: `C129_fails_assigned` (a potential assigned later is not cleaned), and `C129_fails_sum` (a potential that sums over all entries is not row-wise). Not: numpy broadcasting other than of a number, gradients (C05)."
  },
  {
   "property": "C130",
   "status": "proved",
   "theorems": [
    "Mocat.Props.C130_transition",
    "Mocat.Props.C130_law",
    "Mocat.Props.C130_settles",
    "Mocat.Props.C130_explodes",
    "Mocat.Props.C130_stationary",
    "Mocat.Props.C130_average",
    "Mocat.Props.C130_estimates",
    "Mocat.Props.C130_small"
   ],
   "note": "M: the updates of `Underdamped` with `Uncorrected` on an ideal tape. S: `normals m v` (a product of Mathlib's Gaussian measures), `NormalPosterior` (what the gradients add up to), `langevinRows` (the rows of `runFrom`); formulas written out in the statements. P: one update is an affine map of the state and a standard normal vector; the pair of two rows is a chain; affine images of products of Gaussians are products of Gaussians; induction on the number of steps; the mean ergodic toolbox of C110 with a transition that has a density from every start. Not: correlated normal posteriors, finite friction, several leapfrog steps."
  },
  {
   "property": "C131",
   "status": "proved",
   "theorems": [
    "Mocat.Props.C131_stationary",
    "Mocat.Props.C131_descent"
   ],
   "note": "M: Model/Svgd (startup and update, sgd), Model/Kernels (Gaussian kernel, ksd). S: `steinField` (average pull at a point), `objective` (mean potential minus mean log Jacobian determinant), product of the normalised posterior. P: Stein's identity coordinate by coordinate, redrawing one particle; derivative of log det at the identity is the trace, diagonal derivatives of the field by C36, sum recognised as the Stein double sum of C72 which is a square by C89. Not: adapted kernels, minibatches, Adam, later updates (momentum-free, but the ensemble is then dependent)."
  },
  {
   "property": "C132",
   "status": "proved",
   "theorems": [
    "Mocat.Props.C132_proper",
    "Mocat.Props.C132_bootstrap",
    "Mocat.Props.C132_nonlinear_gaussian"
   ],
   "note": "M: Model/Backward (`ffbsi`), Model/Filtering, run on the ideal tape. S: `smoothingExpectation` (with C91), a squared distance of the average over trajectories. P: induction over the observations for the second moment of the backward average (each step adds at most `(w^T B)\u00b2/n`), ratio of the two unbiased averages, then conditionally on the filter the trajectories read disjoint sites and each has the backward average as mean. Not: unbounded functions, filters with unbounded weights, optimal filter (its initial draw is not from the model)."
  },
  {
   "property": "C133",
   "status": "partial",
   "theorems": [
    "Mocat.Props.C133_first_step",
    "Mocat.Props.C133_exact",
    "Mocat.Props.C133_initiate",
    "Mocat.Props.C133_initiate_exact",
    "Mocat.Props.C133_partial",
    "Mocat.Props.C133_never_started",
    "Mocat.Props.C133_no_start_needed",
    "Mocat.Props.C133_fails_step",
    "Mocat.Props.C133_fails_restart"
   ],
   "note": "M: Model/OnlineSessions: a session is the model's attributes, what `startup` stored, and compiled code per number of particles; actions are assignments, starts and steps. S: `modelAfter`, `initiatedWith`, `expected` (a fresh filter for the current model). P: `C133_partial`, and exactly what every call uses: `C133_first_step`, `C133_exact`, `C133_initiate`, `C133_initiate_exact`. Fails: `C133_fails_step` (bootstrap, new drift ignored), `C133_fails_restart` (optimal filter, ignored even after a new start). Not: calls inside `scan`, several model objects."
  },
  {
   "property": "C134",
   "status": "partial",
   "theorems": [
    "Mocat.Props.C134_partial",
    "Mocat.Props.C134_exact",
    "Mocat.Props.C134_unchanged_partial",
    "Mocat.Props.C134_fails"
   ],
   "note": "M: Model/MixtureSessions: attributes and compiled code by argument shape; actions are assignments and evaluations. S: `mixtureAfter`, `mixtureValue`. P: `C134_partial`, `C134_unchanged_partial`, and exactly what is evaluated: `C134_exact`. Fails: `C134_fails` (means and covariances assigned after an evaluation are ignored). Not: direct calls of the component functions, assignments that change the number of components."
  },
  {
   "property": "C135",
   "status": "proved",
   "theorems": [
    "Mocat.Props.C135_importance",
    "Mocat.Props.C135_vanilla",
    "Mocat.Props.C135_rate"
   ],
   "note": "M: Model/Abc (`importanceRun`, `cleanChainAr`) on the ideal tape. S: `weightedAverage`, `abcTarget`, `IsQuantile`. P: rows of longer runs continue those of shorter ones and are independent (C88), so the strong law applies; the first row vanishes in the limit; for acceptance rates empirical quantiles converge (`Lemmas/QuantileLimit`) and few simulations are near the limit. Theorems: `C135_importance`, `C135_vanilla`, `C135_rate`. Not: atoms at the quantile (there the strict comparison drops the atom, C61)."
  },
  {
   "property": "C136",
   "status": "proved",
   "theorems": [
    "Mocat.Props.C136_proper",
    "Mocat.Props.C136_latest",
    "Mocat.Props.C136_bootstrap",
    "Mocat.Props.C136_record_overwritten",
    "Mocat.Props.C136_nonlinear_gaussian"
   ],
   "note": "M: `Filtering.initiateParticles`, `propagate`, `online` on an ideal tape. S: `reports` (what the program sees after each call), `onlineEstimate`, `trajectoryMean`, `Unrelated` keys; the target is `pathIntegral`/`smoothingExpectation` of C132, for the latest state `terminal`. P: the stored trajectories are the particles of a filter on trajectories (`pathFilter`, `Tracks`), whose weights are proper because the one of the states is; then the moments of C103/C132. Cases: any proper filter (`C136_proper`), latest state with either `full` (`C136_latest`), bootstrap, nonlinear Gaussian; `C136_record_overwritten` gives the failure of the estimate from stored weights. Not: propagate_particle_smoother."
  },
  {
   "property": "C137",
   "status": "proved",
   "theorems": [
    "Mocat.Props.C137_proper",
    "Mocat.Props.C137_bootstrap",
    "Mocat.Props.C137_nonlinear_gaussian"
   ],
   "note": "M: `Online.calls true` (successive `propagate_particle_smoother` calls, before the lag) on a tape, from `initiateParticles`. S: `smoothingExpectation` (expectation under the model weighted by likelihoods), `Unrelated` keys, `PathMeasurable`. P: each call splits into a resampling half (done in place on the stored ensemble) and a moving half; first and second moments of the backward average over the stored record by induction on the calls, then C132's bound for the backward pass (`mse_core`). `C137_proper` (any properly weighted filter), `C137_bootstrap`, `C137_nonlinear_gaussian`; example with two calls. Not: calls past the lag (stitching), rejection bounds below the transition density (C83)."
  },
  {
   "property": "C138",
   "status": "partial",
   "theorems": [
    "Mocat.Props.C138_partial",
    "Mocat.Props.C138_exact",
    "Mocat.Props.C138_first_row",
    "Mocat.Props.C138_init_grad",
    "Mocat.Props.C138_current",
    "Mocat.Props.C138_stale_chain",
    "Mocat.Props.C138_fails",
    "Mocat.Props.C138_fails_run"
   ],
   "note": "M: one scenario object with attributes, identity of its gradient functions, and the attributes contained in compiled leapfrog code by gradient functions and number of steps; events assign, `init_grad`, `leapfrog`, evaluation, runs of Underdamped and RandomWalk; a flag for JAX versions where nested compiled functions share code. S: the same actions computed with the attributes current at the call. P: invariants on the stored code over histories; partial, exact and repaired sessions; failures for a Gaussian whose mean is set to 5; what a run on old code records by an invariant of the run. Not: `bfgs_leapfrog` (compiled in the same way), several scenario objects, changes of argument types."
  },
  {
   "property": "C139",
   "status": "partial",
   "theorems": [
    "Mocat.Props.C139_law",
    "Mocat.Props.C139_backward_partial",
    "Mocat.Props.C139_fails_filter",
    "Mocat.Props.C139_fails_backward",
    "Mocat.Props.C139_converges",
    "Mocat.Props.C139_bootstrap"
   ],
   "note": "M: `Online.fixedLagStitching`, `propagatePf`, `propagateBs` on a tape. S: `stitchProb` (weight times ratio of transition densities, normalised), `transDens`, `smoothingExpectation` from a given first state. P: `C139_law` (joint law of the choices, all draws of the stitching independent of its inputs), `C139_backward_partial` (the choice is a function of one uniform that nothing else in the call reads), `C139_converges`, `C139_bootstrap` (quotient of two averages over the smoother's trajectories, each with C137's bound); failures `C139_fails_filter` (probability 3/8 for 1/4) and `C139_fails_backward`; two-state chain as example. Not: rejections within `propagate_particle_smoother_bs` (its keys collide too), several stitchings in a row. The failures rest on the tape giving draws with the same key the same uniform whatever their shape; in JAX they are functions of the same key, and dependent, without being equal."
  },
  {
   "property": "C140",
   "status": "proved",
   "theorems": [
    "Mocat.Props.C140_proper",
    "Mocat.Props.C140_bootstrap",
    "Mocat.Props.C140_nonlinear_gaussian"
   ],
   "note": "M: `Online.propagatePf`, `calls false` on a tape. S: `smoothingExpectation`, `smootherMean` (weighted mean over the returned trajectories and their latest weights). P: `C140_proper`, `C140_bootstrap`, `C140_nonlinear_gaussian`: mean squared error recursion over the calls on the filter that carries trajectories along; resampling adds variance at most `b\u00b2/n`, dropped weights (effective sample size at least `n - 10\u207b\u00b3`) add at most `b\u00b2/n` by Cauchy-Schwarz, the move is unbiased, and the quotient by the estimated likelihood factor costs a constant; the bound is `6\u00b78^T (w^(T+1) B / z)\u00b2 / n`. Not: after the lag (C139)."
  },
  {
   "property": "C141",
   "status": "partial",
   "theorems": [
    "Mocat.Props.C141_partial",
    "Mocat.Props.C141_schedule",
    "Mocat.Props.C141_adaptive",
    "Mocat.Props.C141_potential_partial",
    "Mocat.Props.C141_fails_interrupted",
    "Mocat.Props.C141_fails_schedule",
    "Mocat.Props.C141_fails_cut",
    "Mocat.Props.C141_fails_assigned"
   ],
   "note": "M: `TemperedSessions.smcWrites` (the four writes of `scenario.temperature` made by a tempered run, in order), programs of instructions, a tempered run stopped after any number of its writes. S: `expectedResults` (each MCMC run at the temperature last assigned). P: `C141_partial`, `C141_potential_partial` by induction over the program if every tempered run stopped before it touched the scenario or arrived at the temperature last assigned; `C141_schedule`, `C141_adaptive` say which runs arrive. Fails: `C141_fails_interrupted` (later runs sample the prior, or at the first temperature, or raise an error), `C141_fails_cut` (`max_iter`), `C141_fails_schedule` (schedule that ends below 1), `C141_fails_assigned` (a temperature assigned before is replaced). Not: the traced value itself (any later use of it is taken to raise an error)."
  },
  {
   "property": "C142",
   "status": "partial",
   "theorems": [
    "Mocat.Props.C142_exact_filter",
    "Mocat.Props.C142_exact_backward",
    "Mocat.Props.C142_exact",
    "Mocat.Props.C142_partial",
    "Mocat.Props.C142_frozen",
    "Mocat.Props.C142_expected_bootstrap",
    "Mocat.Props.C142_fails",
    "Mocat.Props.C142_fails_loop"
   ],
   "note": "M: `SmoothingSessions.step` (one model object with the compiled code of the first draws, of the filter steps and of the backward simulation, kept per sizes; `nested` = whether compiled functions called inside other compiled code share it). S: `smoothExpected` (every call on the current attributes). P: `C142_exact`, `C142_exact_filter`, `C142_exact_backward` say for every history on which attributes each part of a call runs; `C142_partial`: the property holds if no call before the last assignment shares code with this one; `C142_frozen`: with shared nested code, a call repeats on the attributes of the first call of its sizes; `C142_expected_bootstrap` ties the specification to the bootstrap filter of C66. Fails: `C142_fails` (backward simulation, with or without `nested`), `C142_fails_loop` (an estimation loop gets the path of the old model, or of neither model). Not: the internals of jax's cache (key: the object's identity and the array shapes)."
  },
  {
   "property": "C143",
   "status": "proved",
   "theorems": [
    "Mocat.Props.C143_average",
    "Mocat.Props.C143_average_linear",
    "Mocat.Props.C143_limit",
    "Mocat.Props.C143_column",
    "Mocat.Props.C143_not_large",
    "Mocat.Props.C143_not_small",
    "Mocat.Props.C143_randomWalk",
    "Mocat.Props.C143_randomWalk_limit",
    "Mocat.Props.C143_large_rejected",
    "Mocat.Props.C143_small_accepted",
    "Mocat.Props.C143_box",
    "Mocat.Props.C143_flat"
   ],
   "note": "M: `RM.correct`, `RM.adapt` around `metropolis`, `randomWalk`. S: `meanAlpha`, `rateAt` (mean acceptance probability at a stepsize), `stepAfter`. P: summation by parts on the update rule of C23; exponential moments of the log stepsize contract outside a range (`Lemmas/Adaptation`), so its mean size is bounded; rates on a box by the normal mass of inward moves. Not: almost-sure convergence; unbounded supports for the rate conditions (there acceptance from far out does not fall below the target uniformly)."
  },
  {
   "property": "C144",
   "status": "proved",
   "theorems": [
    "Mocat.Props.C144_cut_off",
    "Mocat.Props.C144_adaptive",
    "Mocat.Props.C144_box"
   ],
   "note": "M: as C143. S: `rowMean` of the rows of `runFrom`, `meanUnder (target S V)` as in C110. P: with a cut-off, restart after it (`average_after`) and apply C110 at whatever stepsize was reached; without, (position, stepsize, counter) is a Markov chain without invariant law: updates at nearby stepsizes have nearby means (`Lemmas/GaussScale`), updates at stepsizes in a range forget geometrically (one update reaches a fixed share of the posterior), stepsizes stay in a range with high probability (C143), so the mean square of the centred average vanishes (`Lemmas/ErgodicMixing`). Not: almost-sure convergence; unbounded supports without a cut-off."
  },
  {
   "property": "C145",
   "status": "partial",
   "theorems": [
    "Mocat.Props.C145_linear_partial",
    "Mocat.Props.C145_nonlinear_partial",
    "Mocat.Props.C145_lorenz63",
    "Mocat.Props.C145_lorenz96_partial",
    "Mocat.Props.C145_linear_samples",
    "Mocat.Props.C145_nonlinear_samples_partial",
    "Mocat.Props.C145_fails_transition_matrix",
    "Mocat.Props.C145_fails_mismatch",
    "Mocat.Props.C145_fails_lorenz96",
    "Mocat.Props.C145_fails_vector",
    "Mocat.Props.C145_fails_float"
   ],
   "note": "M: `SsmConstruct.linear`, `nonlinear`, `lorenz63`, `lorenz96` on values that are floats or arrays with at most two axes, with `@`, broadcasting `+`, `reshape` and errors; the sampling methods. S: `Given`, `HoldsGiven`, `gauss`. P: case analysis on what is given; C27 for the laws. Fails: transition matrix alone raises; mismatched arguments are accepted and raise later; Lorenz96 ignores its arguments for `dim`; variances given as vectors move all entries together; Python floats raise; transition noise of NonLinearGaussian (C27). Not: arrays with more axes."
  },
  {
   "property": "C146",
   "status": "proved",
   "theorems": [
    "Mocat.Props.C146_starts",
    "Mocat.Props.C146_mean",
    "Mocat.Props.C146_norm",
    "Mocat.Props.C146_chain",
    "Mocat.Props.C146_iterations"
   ],
   "note": "M: as C85 with `nextTemperatureAdaptive` and `bisect`. S: `smcMean`, `temperedMean`, `InProb`. P: an SMC recursion with arbitrary data-dependent temperatures in [0, Tmax] (`Lemmas/SmcAdaptive*`): unnormalised estimates are close to their targets uniformly over temperatures, by compactness of families of moved functions, and second moments of resampling given the past; the model is that recursion off the event that the first temperature is 0, whose probability tends to 0 by the law of large numbers for the effective sample size and an analysis of the search from 0. Not: other inner samplers; number of updates growing with the ensemble (see C147 for reaching the maximal temperature)."
  },
  {
   "property": "C147",
   "status": "proved",
   "theorems": [
    "Mocat.Props.C147_progress",
    "Mocat.Props.C147_ends",
    "Mocat.Props.C147_posterior"
   ],
   "note": "M: as C146. S: `essOf`, `NoLoss`, `smcMean`, `temperedMean`. P: reweighting lowers the effective sample size by no more than the square of a weighted mean (`ess_drop`); weighted means of the moved ensembles are close to tempered means, which are bounded below uniformly in the temperature (`small_step`, `tempered_lower`); an invariant of the regula falsi (`Bracket`) turns this into a lower bound on the step; equal weights stall only if all potentials are equal, which has probability tending to 0. Not: that stalls end when the resampling threshold is below 1 (temperatures need not move although the ensemble does)."
  },
  {
   "property": "C148",
   "status": "proved",
   "theorems": [
    "Mocat.Props.C148_adaptive",
    "Mocat.Props.C148_chain",
    "Mocat.Props.C148_scheduled"
   ],
   "note": "M: `Smc.rmUpdate`, `rmAdapt`, `rmRunFrom` with the random walk on an ideal tape (`rmTape`). S: `smcMean`, `temperedMean`, `InProb`. P: the transition kernels of the inner sampler form a family over (temperature, log stepsize) that is totally bounded in mean for every compact box (`NetFamily`, `rw_net`), so laws of large numbers hold uniformly over the random parameters; log stepsizes stay in a deterministic box because acceptance rates lie in [0, 1]; induction over updates (`tRun_ok`) and refinement of the model's run to the reduced one (`rm_reduced`). Not: inner samplers other than the random walk; a first temperature of 0."
  },
  {
   "property": "C149",
   "status": "proved",
   "theorems": [
    "Mocat.Props.C149_threshold",
    "Mocat.Props.C149_mean",
    "Mocat.Props.C149_limit",
    "Mocat.Props.C149_converges",
    "Mocat.Props.C149_chain"
   ],
   "note": "M: `AbcSmc.startup`, `AbcSmc.update`, `nextThresholdAdaptive` with `RandomWalkABC` on an ideal tape (`abcSmcRun`). S: `abcMean`, `abcPosteriorMean`, `InProb`. P: laws of large numbers uniform over all thresholds, from a finite net of thresholds (`Alive.thresholds`, `CutMove.net`); the empirical quantile then has limiting mass `\u03c1` times that of the previous threshold (`nextLaw`); induction over updates (`thrRun_ok`, `redRun_ok`); the model's state is the reduced one on an event whose probability tends to 1 (`adaptive_state`, `linked_tendsto`). Not: adapted stepsizes; inner samplers other than the random walk; distances with atoms."
  },
  {
   "property": "C150",
   "status": "partial",
   "theorems": [
    "Mocat.Props.C150_autocorrelation_partial",
    "Mocat.Props.C150_time_partial",
    "Mocat.Props.C150_jumps",
    "Mocat.Props.C150_start_decides",
    "Mocat.Props.C150_fixed_lags_fails"
   ],
   "note": "M: the functions of `metrics.py` of C34, C35 and C90 applied to the rows of a run of C110. S: `stationaryMean`, `stationaryCov`: expectations over a state drawn from the posterior and the state a given number of updates later; `InProb`. P: windows of successive states form a chain with the same draws that inherits invariance, irreducibility and regularity, so averages of functions of two states obey the law of large numbers of C110; then continuity. Fails: with a fixed `max_lag_eval` only the first `2 * _next_pow_two(max_lag_eval)` rows enter, so the reported autocorrelation at lag 1 does not converge to that of the chain whenever an update may stay at the start (`C150_fixed_lags_fails`). Not: the self-consistent window of `max_lag_iat=None`; rates."
  },
  {
   "property": "C151",
   "status": "partial",
   "theorems": [
    "Mocat.Props.C151_median_positive_iff",
    "Mocat.Props.C151_median_distinct_partial",
    "Mocat.Props.C151_median_clones_fails",
    "Mocat.Props.C151_median_kernel",
    "Mocat.Props.C151_mean_kernel",
    "Mocat.Props.C151_similarity",
    "Mocat.Props.C151_order"
   ],
   "note": "M: `distances`, `median` (mean of the two middle entries of the sorted list), `medianBandwidth`; `meanBandwidth` of C45. S: counts of pairs, kernel values at all ordered pairs (`kernelValues`), sums over pairs. P: order statistics of a sorted list and monotonicity of the kernel in the distance. Fails: the median rule returns 0 when more than half of the ordered pairs coincide, for instance when one of four particles differs (`C151_median_clones_fails`; exactly then: `C151_median_positive_iff`). Not: cost; rounding."
  },
  {
   "property": "C152",
   "status": "partial",
   "theorems": [
    "Mocat.Props.C152_trace_partial",
    "Mocat.Props.C152_trace_fails",
    "Mocat.Props.C152_autocorrelation_partial",
    "Mocat.Props.C152_autocorrelation_shifted_fails",
    "Mocat.Props.C152_scatter",
    "Mocat.Props.C152_scatter_refuses",
    "Mocat.Props.C152_hist",
    "Mocat.Props.C152_series_refuses"
   ],
   "note": "M: the plotting functions of `metrics.py`; an axis is the list of calls made on it (`Model/Plots.lean`). S: `IsSeries`, `ShowsRows` (what is to be shown), `DrawnOn` (these calls and no others), `barAt` (height of the bar at a position). P: cases, and induction over the list of bars. Fails: with `len < last_n < 2 * len` the slice starts at a negative index and `trace_plot` shows only the last `last_n - len` values (`C152_trace_fails`); the bar of lag `k` stands at `k + 1` (`C152_autocorrelation_shifted_fails`). Not: what Matplotlib draws; keyword arguments passed on; indices of coordinates that do not exist; the warning about concatenation."
  },
  {
   "property": "C153",
   "status": "proved",
   "theorems": [
    "Mocat.Props.C153_forgets",
    "Mocat.Props.C153_error",
    "Mocat.Props.C153_confidence",
    "Mocat.Props.C153_unbounded"
   ],
   "note": "M: the run of C110 and C113. S: `BoundedSupport`, `share` (explicit), `rowProb`, `probUnder`, `rowMean`, `meanUnder`, mean squared error as an integral over the random numbers. P: one update has at least the share `share` of the posterior (acceptance is at least `exp(m - V y)`), hence by induction `j` updates have `1 - (1 - share)^j` of it (`Lemmas/Doeblin.lean`); second moments of sums by the first-step recursion of C110. Unbounded supports: `j` updates rarely move further than a fixed distance. Not: rates on unbounded supports."
  },
  {
   "property": "C154",
   "status": "proved",
   "theorems": [
    "Mocat.Props.C154_forgets",
    "Mocat.Props.C154_error",
    "Mocat.Props.C154_confidence"
   ],
   "note": "M: the ABC run of C112 and C115. S: `BoundedPrior`, `abcShare` (explicit), `abcRows`, `abcTarget` (C87), `rowProb`, `probUnder`, `rowMean`, `meanUnder`. P: the change of variables for one stepsize per coordinate, the share of the ABC posterior in one update, then `Lemmas/Doeblin.lean` on the set of parameters in the prior support; Chebyshev. Not: adapted stepsizes; unbounded priors (C112, C115 without a rate)."
  },
  {
   "property": "C155",
   "status": "proved",
   "theorems": [
    "Mocat.Props.C155_importance",
    "Mocat.Props.C155_vanilla"
   ],
   "note": "M: the importance ABC runs of C88 and C135. S: `standardError`, `Covers`, `weightedAverage` (C135), `meanUnder`, `abcTarget` (C97). P: rows other than the first are independent with one law (`rowPair_iid`), the central limit theorem and the strong law of Mathlib, and the convergence of the standardised error (`Lemmas/ErrorBars.lean`). Not: runs with `acceptance_rate` in place of a threshold; speed of the convergence."
  },
  {
   "property": "C156",
   "status": "proved",
   "theorems": [
    "Mocat.Props.C156_number",
    "Mocat.Props.C156_draws"
   ],
   "note": "M: the VanillaABC run of C88 and C135. S: `acceptedPairs`, `EntriesIn`, `abcTarget` (C97), `normalised`. P: rows are independent with one law (`rowPair_iid`, `vanilla_row_law`); induction on the run length for the entries that fall in a set (`Lemmas/Accepted.lean`). Not: runs with `acceptance_rate` in place of a threshold, where the threshold depends on all rows."
  },
  {
   "property": "C157",
   "status": "proved",
   "theorems": [
    "Mocat.Props.C157_prefix",
    "Mocat.Props.C157_importance",
    "Mocat.Props.C157_continue",
    "Mocat.Props.C157_continue_langevin"
   ],
   "note": "M: `Mcmc.runFrom` with `randomWalk`, `underdamped`, `metropolis`; `importanceRun`. S: `RowsIn`, `continuedRows`, `hamiltonianRows`, `walkRows`. P: prefix from C12; the joint law of stretches with disjoint keys by induction on the stretches (`Lemmas/Segments.lean`). Not: continuing an RMMetropolis run, whose counter and stepsize start afresh; continuing ABC runs, whose data are simulated anew (C106); keys that share descendants."
  },
  {
   "property": "C158",
   "status": "partial",
   "theorems": [
    "Mocat.Props.C158_partial",
    "Mocat.Props.C158_dropped",
    "Mocat.Props.C158_fails_temperature",
    "Mocat.Props.C158_fails_dim"
   ],
   "note": "M: `Model/ScenarioKwargs.lean` (`hasAttr`, `store`, `takeKwargs`, `build`) on top of `Scenario.construct`. S: `latestArg`, `askedPrior`, `askedLik`, `askedTemp`. P: induction over the arguments. Fails: `temperature` (ignored) and `dim` (raises) for objects whose class gives them no value. Not: arguments of the wrong type; properties, whose stored value is shadowed."
  },
  {
   "property": "C159",
   "status": "partial",
   "theorems": [
    "Mocat.Props.C159_partial",
    "Mocat.Props.C159_stretched",
    "Mocat.Props.C159_fails_precision",
    "Mocat.Props.C159_fails_raises",
    "Mocat.Props.C159_fails_float"
   ],
   "note": "M: `Model/GaussianConstruct.lean` (`new`, `broadcast`, `entry`, `potential`): arrays as lists, with NumPy's broadcasting. S: `askedQuadratic`. P: cases over the arguments given; C27 for the factor of a matrix. Fails: `dim` other than 1 and the dimension of the arrays (`C159_fails_precision`, `C159_fails_raises`), float means (`C159_fails_float`). Not: points with several rows; covariances without axes."
  },
  {
   "property": "C160",
   "status": "partial",
   "theorems": [
    "Mocat.Props.C160_values",
    "Mocat.Props.C160_frame_partial",
    "Mocat.Props.C160_given",
    "Mocat.Props.C160_fails_axes",
    "Mocat.Props.C160_fails_half_set"
   ],
   "note": "M: `Model/TwoDimPlot.lean` (`linspaceOf`, `plot`) on top of `plotLims` and `vecPotential` (C117). S: `ShowsTarget`, `Fills`. P: rounding to the nearest grid point; cases over the limits given. Fails: limits passed together with axes are ignored (`C160_fails_axes`); `xlim` assigned without `ylim` makes `plot()` raise (`C160_fails_half_set`). Not: what `contourf` makes of its arguments; colours."
  },
  {
   "property": "C161",
   "status": "proved",
   "theorems": [
    "Mocat.Props.C161_independent_adaptive",
    "Mocat.Props.C161_error_bars_adaptive",
    "Mocat.Props.C161_independent_friction",
    "Mocat.Props.C161_error_bars_friction",
    "Mocat.Props.C161_same_law_langevin",
    "Mocat.Props.C161_same_law_friction",
    "Mocat.Props.C161_same_law_abc",
    "Mocat.Props.C161_same_law_adaptive",
    "Mocat.Props.C161_independent",
    "Mocat.Props.C161_same_law",
    "Mocat.Props.C161_error_bars",
    "Mocat.Props.C161_independent_langevin",
    "Mocat.Props.C161_error_bars_langevin",
    "Mocat.Props.C161_same_key",
    "Mocat.Props.C161_independent_abc",
    "Mocat.Props.C161_error_bars_abc"
   ],
   "note": "M: the runs of C143/C157 (`walkRows`, `hamiltonianRows`, `phaseRows`, `abcRows`, `adaptiveRows`), with the ideal tape of random numbers. S: `RowsIn`, `chainsMean`, `chainsError`, `HonestAcross`. P: a run reads the tape only below its key, so runs with disjoint keys read disjoint sites; the law of the vector of rows does not depend on the key (C157 on boxes, which generate); then the strong law and the central limit theorem with estimated variance of C155. Not: other samplers, the bias of a single finite run (C153 bounds it on bounded supports), a number of runs that grows together with the length of the runs."
  },
  {
   "property": "C162",
   "status": "proved",
   "theorems": [
    "Mocat.Props.C162_bootstrap",
    "Mocat.Props.C162_unweighted",
    "Mocat.Props.C162_same_key",
    "Mocat.Props.C162_nonlinear_gaussian",
    "Mocat.Props.C162_optimal"
   ],
   "note": "M: the filters of C86 and C109 (`run`, `bootstrap`, `optimalFilter`) on the ideal tape. S: `pooledLikelihood`, `pooledMean`, with `likelihoodEstimate`, `filterMean` and `filteringLaw` of C86/C109. P: a run reads the tape only below its key, so the final particle systems of the runs are independent; each is properly weighted for the unnormalised filtering law (C86); the likelihood estimate never exceeds the product of the weight bounds; Chebyshev for the average of the estimates and for the average of the centred numerators. Not: potentials unbounded below, unbounded functions, the joint growth of runs and particles beyond the uniform constant."
  },
  {
   "property": "C163",
   "status": "proved",
   "theorems": [
    "Mocat.Props.C163_randomWalk",
    "Mocat.Props.C163_underdamped",
    "Mocat.Props.C163_unweighted"
   ],
   "note": "M: as C85. S: `pooledNorm`, `pooledSmcMean`, `manyRuns` (independent prior draws for every run, one ideal generator), with `smcMean` and `temperedMean` of C108. P: a run reads the tape only below its key and only its own initial values, so runs are independent (`tape_indep`); each is properly weighted (C85); the estimate never exceeds the product of the weight bounds; Chebyshev as in C162 (`Lemmas/Pooling`). Not: adaptive schedules, finite friction (biased, C85), unbounded likelihoods."
  },
  {
   "property": "C164",
   "status": "proved",
   "theorems": [
    "Mocat.Props.C164_evidence",
    "Mocat.Props.C164_mean",
    "Mocat.Props.C164_unweighted"
   ],
   "note": "M: as C98. S: `abcEvidence`, `pooledAbcEvidence`, `pooledAbcMean`, with `abcMean` and `abcPosteriorMean` of C123. P: a run reads the tape only below its key (`abcRunEst_below`), so runs are independent; each estimate is unbiased (C98) and at most one; Chebyshev for the average and for the ratio (`pooled_ratio`). Not: adaptive thresholds, stepsize adaptation (C98)."
  },
  {
   "property": "C165",
   "status": "proved",
   "theorems": [
    "Mocat.Props.C165_abc_mean",
    "Mocat.Props.C165_abc_evidence",
    "Mocat.Props.C165_bootstrap",
    "Mocat.Props.C165_nonlinear_gaussian",
    "Mocat.Props.C165_optimal",
    "Mocat.Props.C165_smc_randomWalk",
    "Mocat.Props.C165_smc_underdamped"
   ],
   "note": "M: as C162, C163, C98. S: `HonestRuns`, `runsMean`, `runsError` (`Lemmas/SubtapeRuns`), with the estimates of C162, C163 and C164. P: a run is a function of the part of the tape of its key (`run_subtape`, `redIter_subtape`, `abcRunEst_subtape`), so runs are independent copies; unbiasedness (C86, C98) gives the means; strong law and central limit theorem with estimated variance (`Lemmas/ErrorBars`, `honestRuns`). Hypothesis: a run is not degenerate (shown for cases). Not: adaptive thresholds or temperatures; the ensemble Kalman filter (biased)."
  },
  {
   "property": "C166",
   "status": "proved",
   "theorems": [
    "Mocat.Props.C166_abc_evidence",
    "Mocat.Props.C166_abc_mean",
    "Mocat.Props.C166_bootstrap",
    "Mocat.Props.C166_nonlinear_gaussian",
    "Mocat.Props.C166_optimal",
    "Mocat.Props.C166_smc_randomWalk",
    "Mocat.Props.C166_smc_underdamped"
   ],
   "note": "M: as C162, C163, C98. S: `RareErrors` (`Lemmas/RunTails`) with `runsMean` of C165. P: runs are independent copies (C165); unbiasedness gives the means; Hoeffding's inequality (Mathlib's sub-Gaussian bounds) for the two one-sided sums of weight times (deviation minus eps), which also covers runs that all have weight zero. Not: adaptive thresholds and temperatures; the ensemble Kalman filter (biased)."
  },
  {
   "property": "C167",
   "status": "proved",
   "theorems": [
    "Mocat.Props.C167_fraction",
    "Mocat.Props.C167_mean"
   ],
   "note": "M: as C60, C88. S: `acceptedPairs` (C156), `weightedAverage` (C135). P: rows are independent with one law (`rowPair_iid`, `vanilla_row_law`); `Lemmas/RunTails`. Not: ImportanceABC (its first row comes from the prior, C88), acceptance rate instead of threshold."
  },
  {
   "property": "C168",
   "status": "proved",
   "theorems": [
    "Mocat.Props.C168_randomWalk",
    "Mocat.Props.C168_langevin",
    "Mocat.Props.C168_abc",
    "Mocat.Props.C168_same_key",
    "Mocat.Props.C168_adaptive",
    "Mocat.Props.C168_friction",
    "Mocat.Props.C168_same_key_friction",
    "Mocat.Props.C168_same_key_abc",
    "Mocat.Props.C168_same_key_adaptive"
   ],
   "note": "M: as C161. S: `RareAcross`, `chainsMean` (C161). P: the rows of a run as a random vector that depends only on draws under its key (`pathVec_law`, `pathVec_dependsOn`); `rareErrors_one` (Hoeffding). Not: the bias of one run, which starts at a given point (C153), RMMetropolis for other samplers than RandomWalk."
  }
 ]
}
