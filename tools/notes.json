{
 "C08": {
  "note": "The code violates the property (C08_crash_loses_file, C08_names_collide). Proved instead: the contents survive every crash point except between unlink and the end of the write; C08_clash_iff says exactly which paths collide."
 },
 "C10": {
  "note": "False after assigning `potential` itself and for classes with their own __setattr__ (C10_potential_assignment_stale, C10_override_stale). Proved for all sequences of assignments to prior, likelihood and temperature."
 },
 "C27": {
  "note": "False for non-diagonal covariances in the state-space potentials (C27_violated) and for vector covariances (C27_vector_potential). Proved for every other use, and for every diagonal covariance."
 },
 "C29": {
  "note": "False for a scalar diagonal in dimension > 1 (C29_scalar_det gives the value). Proved for vector diagonals, all dimensions and memory lengths."
 },
 "C34": {
  "note": "False when the series plus the lag does not fit the transform (C34_wraps); C34_circular says what is returned then. Proved for all series and lags that fit."
 },
 "C37": {
  "note": "False for grad_x with bandwidth other than 1 and for diag_grad_xy (C37_gradX_wrong, C37_diagGradXY_wrong)."
 },
 "C40": {
  "note": "False when reweighting to the maximal temperature would not lower the ESS, e.g. with equal likelihoods (C40_stalls, C40_stalls_no_loss). With enough iterations of the search these are the only stalls (C40_stalls_iff; after resampling C40_stalls_resampled_iff)."
 },
 "C46": {
  "note": "False for exactly two time points, where the code raises (C46_two_points). Proved for every other length."
 },
 "C51": {
  "note": "False within a step (C51_reuse): the key of a step is used twice. Proved: keys of different steps differ, and the list of uses is complete."
 },
 "C52": {
  "note": "False for the optimal filter with non-diagonal covariances (C52_optimal_fails). Proved for the bootstrap filter, and for the optimal filter whenever the factors commute with their transposes."
 },
 "C56": {
  "note": "False for lag 0 (C56_fails_ignores_observations, C56_fails_backward): observations play no part. Proved: what a call with lag 0 does (C56_zero_call), and that ensembles are proposed one from another as in a filter."
 },
 "C58": {
  "note": "False unless the initial covariance factor is the identity (C58_fails, C58_iff)."
 },
 "C59": {
  "note": "Means and covariances proved in full (C59_smoother). The lag-one moment is wrong in the code (C59_lag_one_fails); C59_lag_one_error gives the error exactly."
 },
 "C66": {
  "note": "False for uniforms above 1 - 1e-6 (C66_fails). The range in which it holds is exact (iff), and C66_law gives the law of the draws."
 },
 "C68": {
  "note": "False for general covariances (C68_fails_det, C68_fails_weights, C68_fails_shape). C68_exact says what density the code has, for all inputs."
 },
 "C69": {
  "note": "False for the damping constant (C69_padding_damps). Proved for the factors."
 },
 "C71": {
  "note": "grad_x, grad_y proved in full. diag_grad_xy false in dimension 2 (C71_diag_wrong), proved in dimension 1."
 },
 "C73": {
  "note": "False for backward_sim with lag 1 (C73_fails). Proved for lag two or more."
 },
 "C74": {
  "note": "False for non-diagonal initial covariances (C74_fails). Proved when the factor commutes with its transpose."
 },
 "C76": {
  "note": "False when max_iter is used up (C76_truncated_fails). Proved otherwise, for uniforms below 1 - 1e-6."
 },
 "C77": {
  "note": "False unless c = k (C77_fails, C77_only_a_iff)."
 },
 "C78": {
  "note": "Banana proved in full. Funnel false (C78_funnel_fails): C78_funnel_partial says which law the code has."
 },
 "C80": {
  "note": "False for transitions over steps other than 1 and for the default observation covariance (C80_transition_fails, C80_default_likelihood_fails). Proved otherwise."
 },
 "C83": {
  "note": "False for the default bound parameter (C83_fails_default_bound). Proved for full resampling and for valid bounds."
 },
 "C85": {
  "note": "Proved for RandomWalk and for Underdamped with infinite friction; false for finite friction (C85_fails_finite_friction)."
 },
 "C88": {
  "note": "Proved for VanillaABC and for all rows of ImportanceABC but the first; false for the first (C88_importance_fails)."
 },
 "C89": {
  "note": "The Stein identity and mean square are proved for the gradient of the log density; false for the gradients stored in a sample (C89_fails). Non-negativity proved without minibatches, false with them (C89_batch_negative)."
 },
 "C96": {
  "note": "Proved for Underdamped; false for RandomWalk (C96_randomWalk_fails, C96_randomWalk_stale)."
 },
 "C98": {
  "note": "Proved for thresholds that are hit with probability zero; false otherwise (C98_fails_atoms). Adaptive thresholds and stepsizes are not covered."
 },
 "C99": {
  "note": "Proved for extras not used before and samplers not run again; false otherwise (C99_fails_*). C99_sticky says what a reused extra does."
 },
 "C100": {
  "note": "Proved for RandomWalk and Underdamped; for QNUnderdamped false when a state object is reused with a new value or scenario (C100_fails_*)."
 },
 "C101": {
  "note": "Proved for float and diagonal covariances; false for full matrices, vector covariances and the default data (C101_fails_*)."
 },
 "C104": {
  "note": "Proved except for values given in initial_extra for leapfrog_steps, and for the tuned parameter while the sampler's own is None; there it is false (C104_fails_leapfrog, C104_fails_rm). C104_rm_start is exact."
 },
 "C105": {
  "note": "Proved for the gradients of potentials that are not reassigned, and for value-and-gradient of the initial and transition potentials. The rest is false: C105_fails_likelihood, C105_fails_reassigned, C105_fails_own."
 },
 "C106": {
  "note": "Proved for any sequence of runs by any of these samplers on one scenario with one first threshold, from an object that began with a value only. False once the value, the scenario's data or the first threshold change: C106_fails_new_value, C106_fails_new_data, C106_fails_schedule."
 },
 "C107": {
  "note": "Proved for scenarios without constrain. With constrain it is false: the constrained ensemble is compared with the unconstrained initial one, so a run may stop before its first update (C107_fails_constrained)."
 },
 "C111": {
  "note": "Proved for one leapfrog step (the default) and positive or infinite friction. With two leapfrog steps it is false (C111_fails_two_steps, C111_fails)."
 },
 "C114": {
  "note": "Proved for one leapfrog step (the default) and positive or infinite friction. With two leapfrog steps it is false (C114_fails_two_steps)."
 },
 "C117": {
  "note": "Proved: whenever auto_axes_lims ends, the limits contain every grid point above a tenth of the maximum and lie strictly inside the grid; it ends at once when the first grid holds the mass. False of the code: no margin (C117_fails_margin), endless recursion for flat or zero densities (C117_fails_flat, C117_fails_zero), first limits kept after a change of potential (C117_plot_keeps)."
 },
 "C118": {
  "note": "Proved for samplers given a kernel whose parameter object no kernel-less sampler ran with, and for all kernel-less samplers. False of the code otherwise: C118_fails_ignored, C118_fails_shared."
 },
 "C120": {
  "note": "Proved for g-and-k and for the transformed SIR and Lotka-Volterra scenarios; for the untransformed ones only with the density restricted to positive parameters, because exp(-prior_potential) has infinite mass: C120_fails_negative."
 },
 "C125": {
  "note": "False when the initial covariance is not diagonal, because the first draw has the wrong covariance (C125_fails, from C74). Proved when the factors commute with their transposes; for other covariances the limit is the Kalman filter started from the law of the first draw (C125_recursion)."
 },
 "C126": {
  "note": "False with a positive nugget, so with the default 1e-5: the limit is then another mean (C126_fails). Proved for nugget 0 (C126_schedule_partial, C126_default_partial); for any nugget the limit is the recursion in C126_recursion."
 }
}