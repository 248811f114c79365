"""Writes /verif/properties.jsonl (kept as a script so that the JSON is always well formed)."""
import json, pathlib

P = []


def p(title, statement, quantifier, why, anchors):
    P.append(dict(id=f"C{len(P) + 1:02d}", title=title, statement=statement, quantifier=quantifier,
                  why_tests_cant=why, anchors=anchors))


S = "mocat/src/"

# ---------------------------------------------------------------- core
p("cdict.copy isolates attribute assignment",
  "After b = a.copy(), no sequence of attribute assignments, deletions or further copies made through b changes any "
  "attribute read through a (and vice versa), while a nested cdict remains shared: assigning through b.inner is seen "
  "through a.inner. deepcopy() removes that sharing as well.",
  "every heap, every cdict, every finite sequence of assignments/deletions/copies on the copy",
  "Aliasing depends on the whole history of mutations; a unit test tries one mutation on one layout.",
  [S + "core.py: cdict.__init__", S + "core.py: cdict.copy", S + "core.py: cdict.deepcopy"])
p("cdict flattens and unflattens without loss",
  "tree_unflatten(*reversed(tree_flatten(c))) rebuilds c: same keys in the same order, each bound to the same child; "
  "mapping a function over the leaves of any nested cdict keeps the key structure and touches every leaf once, with a "
  "static_cdict treated as one leaf.",
  "every cdict, nested to any depth, with any number of attributes",
  "jit/scan/vmap rely on the round trip for every structure users build; a test sees a few structures.",
  [S + "core.py: cdict.tree_flatten", S + "core.py: cdict.tree_unflatten", S + "core.py: static_cdict"])
p("Indexing a cdict indexes exactly its arrays",
  "c['key'] returns the attribute; c[i] with a non-string index applies the index to every array attribute of "
  "dimension >= 1 and recursively to nested (non-static) cdicts, leaves scalars, 0-d arrays, static_cdicts and other "
  "objects untouched, keeps the key order, and does not change c.",
  "every cdict nested to any depth, every index function",
  "A test fixes one layout; the claim is for all layouts and depths.",
  [S + "core.py: cdict.__getitem__"])
p("Adding cdicts appends along the leading axis",
  "For a + b: the keys are exactly a's keys; an attribute that is an array in either operand becomes a's rows followed "
  "by b's rows, so that row i < len(a) is a's row i and row len(a)+j is b's row j; nested cdicts are added "
  "recursively; time is summed; every other attribute keeps a's value; a + None is a copy of a; keys only in b are dropped.",
  "all pairs of cdicts nested to any depth",
  "Needs all layouts, lengths and row positions.",
  [S + "core.py: cdict.__add__"])
p("Appending chains is associative",
  "For chains with array (dimension >= 1), numeric time, plain and nested attributes that have the same keys, "
  "(a + b) + c equals a + (b + c), so a run can be continued in pieces in any grouping.",
  "all triples of cdicts of the same shape, nested to any depth",
  "An algebraic law over all inputs.",
  [S + "core.py: cdict.__add__"])
p("Saving without overwrite never damages an existing file",
  "save_cdict(c, path) with overwrite=False on a path whose .cdict file exists raises RuntimeError, and at every point "
  "at which the process may be killed every file that existed before still exists with its original contents.",
  "all file systems, paths, cdicts, and all crash points",
  "Crash points cannot be enumerated by unit tests.",
  [S + "core.py: save_cdict", S + "core.py: cdict.save"])
p("load_cdict returns what save_cdict stored",
  "After save_cdict(c, path) succeeds, load_cdict on the path with its suffix replaced by .cdict returns c, whatever "
  "was stored elsewhere before or after; loading a missing path or a path with another suffix raises ValueError and "
  "changes nothing. save_cdict succeeds exactly when no regular file stands where a directory is needed, the target "
  "is not a directory, it is absent or overwrite is set, and pickling succeeds; missing directories are created.",
  "all file systems, cdicts, paths and later unrelated saves",
  "Histories of saves to arbitrary paths.",
  [S + "core.py: save_cdict", S + "core.py: load_cdict"])
p("Overwriting save keeps one good version and distinct names stay distinct",
  "save_cdict(c, path, overwrite=True) should leave, at every crash point, either the old or the new contents, and "
  "saving under two different paths should produce two files. (Both fail in the code: the old file is unlinked before "
  "the new one is written, and with_suffix maps 'run.v1' and 'run.v2' to the same file. What holds is stated exactly.)",
  "all crash points; all pairs of path names",
  "Crash points and all name pairs.",
  [S + "core.py: save_cdict"])
p("Scenario potential is prior + temperature * likelihood",
  "However the user supplies the target (likelihood, potential, with or without prior, as methods or keyword "
  "arguments), after construction potential(x) = prior_potential(x) + temperature * likelihood_potential(x), a missing "
  "prior counts as 0, a scenario given only by its potential has that potential at temperature 1, and later assignments "
  "to temperature, prior or likelihood take effect on the next evaluation. (A scenario given potential and prior but no "
  "likelihood counts the prior twice: proved as a separate theorem.)",
  "all combinations of implemented members, all functions, temperatures, and all assignment histories",
  "Every configuration and every history of reassignments.",
  [S + "core.py: Scenario.__init__", S + "core.py: is_implemented"])
p("Scenario gradients never go stale",
  "After any sequence of assignments to prior_potential, likelihood_potential and temperature on a scenario, "
  "grad_potential(x) equals grad of the current potential, and potential_and_grad agrees with both. (Fails after "
  "assigning potential directly, and for the scenarios that override attribute assignment: shown separately.)",
  "all assignment histories",
  "Histories of assignments are unbounded.",
  [S + "core.py: Scenario.__setattr__", S + "core.py: Scenario.init_grad",
   S + "scenarios/toy_examples.py: Gaussian.__setattr__"])
# ---------------------------------------------------------------- loops and run
p("while_loop_stacked is a bounded while loop with history",
  "while_loop_stacked(cond, body, init, max_iter) returns exactly the states visited by `while cond: state = body` in "
  "order, stopping at the first state at which cond fails or after max_iter steps; the body is not applied again after "
  "the first failure even though later scan iterations still run; entries of the raw stack past that point are the "
  "initial state.",
  "all conditions, bodies, initial carries and max_iter",
  "All conditions/bodies, including ones that become true again.",
  [S + "utils.py: _while_loop_stacked", S + "utils.py: while_loop_stacked"])
p("run returns initial state plus one state per update",
  "run(...) returns a chain whose first state is the started-up initial state and whose k+1-st state is update applied "
  "to the k-th, until termination_criterion holds or max_iter updates were made; for MCMC samplers the chain has exactly "
  "n states (n >= 1), and for a run resumed with iter = k it has 1 + (n - 1 - k) states.",
  "all samplers, scenarios, n and initial states",
  "All n and update functions.",
  [S + "sample.py: run", S + "sample.py: Sampler.termination_criterion", S + "mcmc/sampler.py: MCMCSampler.startup"])
p("Parameter precedence at start-up",
  "The parameters a run uses are, for every parameter of the sampler: the value in initial_extra.parameters when present "
  "and not None, else the keyword argument given to run, else the value stored on the sampler; parameters of "
  "initial_extra unknown to the sampler are kept; keyword arguments that name no attribute or parameter have no effect; "
  "and a keyword argument given to one run persists on the sampler for later runs.",
  "all parameter sets, keyword arguments, and histories of runs",
  "All key sets and all run histories.",
  [S + "sample.py: Sampler.__init__", S + "sample.py: Sampler.startup"])
# ---------------------------------------------------------------- MCMC
p("Accept/reject is all or nothing",
  "A Metropolis-corrected step returns either the whole proposed state or the whole state after `always`, except that "
  "alpha and the random key are always the new ones; it accepts iff the uniform draw is < alpha, alpha is in [0,1] and a "
  "NaN acceptance probability is treated as 0 (never accepted); with alpha = 1 it always accepts.",
  "all states, proposals, acceptance values including NaN and infinities, and all uniforms in [0,1)",
  "All float values including NaN/inf and all draws.",
  [S + "mcmc/metropolis.py: Metropolis.correct", S + "mcmc/sampler.py: MCMCSampler.update"])
p("A chain never enters a zero-density or NaN state",
  "A RandomWalk/Metropolis chain started at a state whose potential is finite only ever visits states whose potential "
  "is finite or -inf: a proposal with potential +inf (zero density) or NaN is never accepted, at any step of any run.",
  "all scenarios (potentials with NaN and infinite values), all keys, all chain lengths",
  "All histories.",
  [S + "mcmc/standard_mcmc.py: RandomWalk.acceptance_probability", S + "mcmc/metropolis.py: Metropolis.correct"])
p("Random-walk Metropolis leaves the target invariant",
  "For every measurable potential U (values in R or +inf outside the support), stepsize, and dimension, one "
  "RandomWalk+Metropolis update of a point distributed as exp(-U) is again distributed as exp(-U).",
  "all dimensions, potentials, stepsizes and test functions",
  "An identity between integrals over all potentials.",
  [S + "mcmc/standard_mcmc.py: RandomWalk.proposal", S + "mcmc/standard_mcmc.py: RandomWalk.acceptance_probability",
   S + "mcmc/metropolis.py: Metropolis.correct"])
p("General Metropolis-Hastings ratio satisfies detailed balance",
  "mh_acceptance_probability gives pi(x) q(x,y) a(x,y) = pi(y) q(y,x) a(y,x) for all states x, y and every forward "
  "proposal potential, and it is symmetric-correct in the order of its arguments.",
  "all potentials and proposal potentials",
  "All pairs of states and all kernels.",
  [S + "mcmc/metropolis.py: mh_acceptance_probability"])
p("Leapfrog with momentum flip is an involution",
  "Running the Underdamped proposal (L leapfrog steps then negating the momenta) from its own output returns the starting "
  "position and momenta, for every L, stepsize, temperature and differentiable-or-not gradient function that depends on "
  "position only; the stored potential and gradient are those of the stored position.",
  "all dimensions, L, stepsizes, temperatures and gradient functions",
  "For all L and all gradient fields.",
  [S + "utils.py: _leapfrog", S + "mcmc/standard_mcmc.py: Underdamped.proposal"])
p("Underdamped Metropolis update leaves target x Gaussian momenta invariant",
  "The leapfrog proposal preserves volume, and the accept/reject step with the code's acceptance probability leaves "
  "exp(-U(x) - |p|^2/2) invariant.",
  "all dimensions, measurable gradient fields, L, stepsizes and test functions",
  "An identity between integrals.",
  [S + "utils.py: _leapfrog", S + "mcmc/standard_mcmc.py: Underdamped"])
p("Momentum refresh preserves the standard normal",
  "The partial refresh (negation then mixing with exp(-gamma eps) and sqrt(1-exp(-2 gamma eps))) maps a standard normal "
  "momentum to a standard normal momentum for every friction >= 0 and stepsize >= 0.",
  "all frictions, stepsizes, dimensions",
  "All parameter values.",
  [S + "mcmc/standard_mcmc.py: Underdamped.always"])
p("The iteration counter counts updates",
  "After k updates of any MCMC sampler extra.iter has increased by exactly k, whatever was accepted or rejected, so "
  "adaptation schedules see 1,2,3,...",
  "all runs, acceptance patterns and corrections",
  "All acceptance histories.",
  [S + "mcmc/sampler.py: MCMCSampler.update", S + "mcmc/metropolis.py: RMMetropolis.correct"])
p("MCMC runs never consume a random key twice",
  "In a run of RandomWalk, Underdamped, QNUnderdamped or RandomWalkABC with Metropolis, start-up included, for any number "
  "of steps, no key is used by two draws (or by a draw and a split).",
  "all run lengths, leapfrog counts and accept/reject patterns",
  "All schedules of splits.",
  [S + "mcmc/standard_mcmc.py", S + "mcmc/qn_underdamped.py", S + "abc/mcmc.py", S + "mcmc/metropolis.py: Metropolis.correct"])
p("Robbins-Monro adaptation is sound",
  "With the log update the tuned parameter stays positive for ever; it moves up when the metric is above target for a "
  "parameter in which the metric decreases (and down otherwise); it is unchanged when on target; after adapt_cut_off it "
  "never changes; and the recorded stepsize of each state is the tuned value at that step.",
  "all histories of acceptance rates, schedules and initial values",
  "All histories.",
  [S + "mcmc/metropolis.py: RMMetropolis", S + "mcmc/metropolis.py: robbins_monro_update"])
p("Quasi-Newton memory is a sliding window",
  "At every step of every run the quasi-Newton memory holds exactly the last m (value, gradient, potential) entries "
  "pushed, oldest first, padded by the initial fill while fewer than m were pushed.",
  "all runs and memory sizes",
  "All histories.",
  [S + "mcmc/qn_underdamped.py: QNUnderdamped"])
# ---------------------------------------------------------------- utils
p("leave_one_out_indices removes exactly one index",
  "For 0 <= r <= n the result has length n, is strictly increasing, and contains i in {0..n} iff i != r; for r > n it is "
  "0..n-1 and for r < 0 it is 1..n.",
  "all n and remove indices (any integer)",
  "All n, r.",
  [S + "utils.py: leave_one_out_indices"])
p("gaussian_potential parametrisations agree and are normalised",
  "For every x, mean: scalar, vector and matrix precision, and square-root precision inputs that describe the same "
  "Gaussian give the same potential; the diagonal forms equal minus the log of the normal density (so exp of minus the "
  "result integrates to 1); the vectorised call equals the row-by-row calls; the full-matrix form without determinant "
  "differs by a constant.",
  "all dimensions, points, means and precisions",
  "All inputs.",
  [S + "utils.py: gaussian_potential"])
p("Derived covariance factors describe the same Gaussian",
  "After setting a covariance, the derived square root, precision square root and determinant describe that same "
  "Gaussian in every place they are used (sampling and potentials). (Holds for scalar/diagonal matrices; fails for "
  "non-diagonal covariances in the state-space models, for the determinant of vector covariances, and in "
  "NonLinearGaussian sampling: exact statements proved.)",
  "all covariance matrices (Cholesky factors) and dimensions",
  "All matrices; the repo only tests identity covariances.",
  [S + "utils.py: reset_covariance", S + "ssm/linear_gaussian/linear_gaussian.py",
   S + "ssm/nonlinear_gaussian.py: NonLinearGaussian.transition_sample"])
p("bisect keeps a bracket and terminates",
  "If fun has opposite signs at the bounds, every iterate of bisect keeps bounds inside the previous bounds with opposite "
  "(or zero) signs, evaluations equal fun at the bounds, and it stops within max_iter steps with an evaluation below tol or "
  "the iteration limit reached; if both evaluations have the same sign the input bounds are returned unchanged.",
  "all functions, bounds, tolerances and iteration limits",
  "All functions.",
  [S + "utils.py: bisect"])
p("BFGS factor products are adjoint and their determinant is right",
  "bfgs_sqrt_prod and bfgs_sqrt_transpose_prod are transposes of one another, and bfgs_sqrt_det / log_abs_det give the "
  "determinant of that linear map, for every memory length and dimension with a vector diagonal. (With a scalar diagonal c in "
  "dimension d > 1 the determinant is too small a power of c: shown.)",
  "all memory lengths, dimensions and factor arrays",
  "All arrays and lengths.",
  [S + "utils.py: _bfgs_sqrt_prod", S + "utils.py: _bfgs_sqrt_transpose_prod", S + "utils.py: _bfgs_sqrt_det"])
p("BFGS factors are mutually inverse, positive definite and satisfy the secant equation",
  "For every history of values and gradients with positive-curvature (or r > -inf), the Hessian approximation built from "
  "(us, ts) and the inverse approximation built from (ps, qs) are inverse to one another, positive definite, and map the "
  "last step to the last gradient difference (and back).",
  "all histories, dimensions, diagonals",
  "All histories.",
  [S + "utils.py: _bfgs_sqrt_pqut"])
p("BFGS damping enforces curvature",
  "With r > 0 the damped gradient differences satisfy s.y >= r * s.B0.s for every pair with s.B0.s >= 1e-10, so no such "
  "pair is skipped because of its sign; pairs are never damped when all curvatures are already at least r.",
  "all histories and r",
  "All histories.",
  [S + "utils.py: _bfgs_sqrt_pqut"])
p("Localisation matrix is a valid taper",
  "gc_matrix(dim, radius) is symmetric, circulant, 1 on the diagonal, between 0 and 1, continuous in the distance, and 0 "
  "at circular distance >= 2*radius.",
  "all dim and radius > 0",
  "All sizes and radii.",
  [S + "utils.py: gc_matrix", S + "utils.py: _gc"])
# ---------------------------------------------------------------- metrics
p("Weight ESS is between 1 and n",
  "ess_log_weight equals (sum w)^2 / sum w^2, lies in [1, n], is n iff all weights are equal, is invariant to adding a "
  "constant to the log weights and to permutation, and for 0/1 weights equals the number of ones.",
  "all n >= 1 and all log-weight vectors (including -inf entries, not all -inf)",
  "All vectors.",
  [S + "metrics.py: log_ess_log_weight", S + "metrics.py: ess_log_weight"])
p("autocorrelation computes the empirical autocorrelation",
  "autocorrelation(vals, max_lag)[k] equals the lag-k sample autocovariance divided by the lag-0 one, for all k < "
  "min(max_lag, len). (Exact when len <= max_lag; for longer series the FFT window truncates and wraps: counterexample "
  "proved.)",
  "all series, lengths and lags",
  "All lengths; the repo tests length 100 only.",
  [S + "metrics.py: autocorrelation", S + "metrics.py: _next_pow_two"])
p("Integrated autocorrelation time uses the first self-consistent window",
  "tau(M) = 1 + 2*sum_{k=1..M} rho_k. The IAT is tau at the smallest M >= 1 with M > 5*tau(M), and tau(1) when there is none; an "
  "explicit maximum lag m gives tau(m+1), so "
  "the ESS of a series equals its length divided by that tau.",
  "all autocorrelation sequences",
  "All sequences, including those with no self-consistent window.",
  [S + "metrics.py: integrated_autocorrelation_time", S + "metrics.py: ess_autocorrelation"])
p("Gaussian kernel derivatives are derivatives",
  "For the Gaussian kernel grad_x, grad_y and diag_grad_xy equal the partial derivatives of the kernel, the kernel is "
  "symmetric with values in (0,1] and 1 on the diagonal, for every bandwidth > 0 and dimension.",
  "all dimensions, points and bandwidths",
  "All points.",
  [S + "kernels.py: Gaussian"])
p("IMQ kernel derivatives are derivatives",
  "For the inverse multiquadric kernel grad_y equals the partial derivative; grad_x should equal minus grad_y and "
  "diag_grad_xy the mixed derivative. (grad_x holds only for bandwidth 1; diag_grad_xy has a sign error: counterexamples.)",
  "all dimensions, points, bandwidths, c, beta",
  "The repo tests bandwidth 1 at two points.",
  [S + "kernels.py: IMQ"])
# ---------------------------------------------------------------- transport
p("Resampling moves whole particles and resets weights",
  "Resampling returns n particles each of which is, field by field, one of the input particles with the same index for "
  "all fields, with all log weights 0 and ess n; and it happens iff ess is at or below the threshold.",
  "all ensembles, thresholds and random draws",
  "All ensembles and draws.",
  [S + "transport/smc.py: SMCSampler.resample", S + "transport/smc.py: SMCSampler.update"])
p("Tempering visits the schedule and nothing else",
  "With a strictly increasing temperature_schedule the temperatures of the returned MetropolisedSMC chain are exactly "
  "the schedule (without a leading 0), ending at its last entry; with an adaptive schedule every temperature is at least "
  "the previous one and at most max_temperature.",
  "all schedules, ensembles and runs",
  "All schedules and histories.",
  [S + "transport/smc.py: TemperedSMCSampler", S + "transport/smc.py: MetropolisedSMCSampler"])
p("Adaptive tempering makes progress",
  "Each adaptive step should raise the temperature until max_temperature is reached. (Fails: with equal likelihoods, e.g. one "
  "particle, the temperature never moves; a step stalls exactly when the ESS at the maximum temperature is not "
  "smaller than the current one; right after resampling this means that all likelihood potentials are equal.)",
  "all ensembles",
  "All ensembles including degenerate ones.",
  [S + "transport/smc.py: MetropolisedSMCSampler.next_temperature_adaptive", S + "utils.py: bisect"])
p("Log normalising constant is the telescoping product estimator",
  "At every step of every run log_norm_constant equals log mean initial weight plus the sum over steps of log(sum of new "
  "weights / sum of previous weights); between resamplings it telescopes to the log mean weight; each particle's log weight "
  "is minus the sum of (temperature increment) * likelihood potential since the last resampling.",
  "all runs and resampling patterns",
  "All histories.",
  [S + "transport/smc.py: TemperedSMCSampler.adapt", S + "transport/smc.py: MetropolisedSMCSampler.log_weight"])
p("Tempered SMC states are internally consistent",
  "In every state of a tempered SMC run potential = prior_potential + temperature * likelihood_potential for every particle "
  "and all particles carry the same temperature; the likelihood recovered after an MCMC move is the likelihood at the moved "
  "position whenever the temperature is non-zero.",
  "all runs",
  "All histories.",
  [S + "transport/smc.py: TemperedSMCSampler.adapt", S + "transport/smc.py: MetropolisedSMCSampler.forward_proposal"])
p("Ensemble Kalman inversion stays in the initial affine span",
  "Every particle of every iterate of tempered EKI lies in the affine span of the initial ensemble, whatever the data, "
  "forward model, noise and schedule.",
  "all ensembles, simulators, data, schedules, iterations",
  "All iterations and models.",
  [S + "transport/teki.py: TemperedEKI.update", S + "transport/teki.py: calculate_covariances"])
p("EKI temperature schedule",
  "With the default schedule EKI performs exactly 50 updates, temperatures strictly increasing from 0 to 1; with a given "
  "schedule starting at 0 the temperatures are that schedule.",
  "all schedules",
  "All schedules; default run involves rounding.",
  [S + "transport/teki.py: TemperedEKI"])
p("SVGD with one particle is gradient descent; updates are permutation equivariant",
  "For one particle SVGD moves along minus the potential gradient; for n particles with full batches permuting the "
  "ensemble permutes the update. (A sampler object reused with another n keeps the first n as its batch size: shown.)",
  "all kernels of unit diagonal, ensembles, permutations; all run histories",
  "All ensembles and permutations.",
  [S + "transport/svgd.py: SVGD", S + "transport/svgd.py: kernelised_grad_matrix"])
# ---------------------------------------------------------------- SSM
p("Smoothing potential is the sum of its parts",
  "smoothing_potential(x, y, t) = initial + sum of transition + sum of likelihood potentials for every length T >= 1. (For "
  "T = 2 the code raises an error: shown.)",
  "all state-space models, lengths and trajectories",
  "All T; the failing one is T = 2.",
  [S + "ssm/ssm.py: StateSpaceModel.smoothing_potential"])
p("Smoothing gradient is the gradient",
  "grad_smoothing_potential(x)[k] is the derivative of the sum of initial, transition and likelihood potentials with respect to "
  "x_k, for all T >= 1 and k.",
  "all differentiable models, lengths, positions",
  "All T and k.",
  [S + "ssm/ssm.py: StateSpaceModel.grad_smoothing_potential"])
p("simulate follows the model with fresh keys",
  "simulate(t, key) returns len(t) latents and observations with x_0 from initial_sample, x_i from transition_sample of "
  "x_{i-1} between t_{i-1} and t_i, y_i from likelihood_sample of x_i, using 2*len(t) pairwise distinct keys.",
  "all models and time grids",
  "All lengths.",
  [S + "ssm/ssm.py: StateSpaceModel.simulate"])
p("Particle filter output is aligned in time",
  "run_particle_filter_for_marginals returns len(t) (or len(initial)+len(t)) time slices of n particles; slice i was "
  "proposed from resampled slice i-1 with y_i, t_{i-1}, t_i; its log weight is the previous one (0 if resampled) plus the "
  "incremental weight; its recorded ess is the ESS of that log weight.",
  "all models, filters, observation sequences, thresholds and keys",
  "All lengths and resampling patterns.",
  [S + "ssm/filtering.py: run_particle_filter_for_marginals"])
p("Online propagation agrees with the batch filter",
  "Feeding observations one by one through propagate_particle_filter produces at each time the same latest particles, "
  "weights and ess as run_particle_filter_for_marginals with the same per-step keys. (The y record differs in shape: shown.)",
  "all observation sequences",
  "All sequences and resampling patterns.",
  [S + "ssm/filtering.py: propagate_particle_filter", S + "ssm/filtering.py: resample_particles"])
p("Particle filters use a key once",
  "No random key is consumed twice in a particle filter run. (Fails: the key of a step is used to resample and to propagate: "
  "shown; what holds is that different steps use different keys.)",
  "all runs",
  "All runs.",
  [S + "ssm/filtering.py: propagate_particle_filter", S + "ssm/filtering.py: run_particle_filter_for_marginals"])
p("Bootstrap and optimal weights are the generic importance weights",
  "The incremental log weight of BootstrapFilter equals the generic formula -transition -likelihood +proposal evaluated for "
  "its own proposal; the optimal filter's weight equals the generic formula for its own Gaussian proposal. (The latter fails for non-diagonal covariances, where potentials use a factor with the wrong transpose: shown.)",
  "all models and particle pairs",
  "All states.",
  [S + "ssm/filtering.py: ParticleFilter.intermediate_log_weight", S + "ssm/filtering.py: BootstrapFilter",
   S + "ssm/nonlinear_gaussian.py: OptimalNonLinearGaussianParticleFilter"])
p("Backward simulation returns filter particles",
  "Each backward-simulated trajectory takes at every time a value that is one of the filter particles at that time, has length "
  "T, and the output is n trajectories, with or without rejection.",
  "all filter outputs, n, rejection limits, draws",
  "All draws.",
  [S + "ssm/backward.py: backward_simulation"])
p("The rejection loop is bounded and accounts its cost",
  "The rejection loop runs at most maximum_rejections iterations, keeps the bound non-decreasing and at least every density "
  "seen at its last reset, never un-accepts except when the bound is raised, finishes leftovers with full resampling, and reports "
  "the exact number of transition evaluations.",
  "all densities, draws, limits",
  "All executions of the loop.",
  [S + "ssm/backward.py: backward_simulation_rejection"])
p("Fixed-lag smoothing freezes the past",
  "Once time s is more than lag steps old, every later call of propagate_particle_smoother leaves the particles' values at "
  "time s unchanged, and the weights are uniform; each trajectory is an old prefix joined to the recent part of one trajectory.",
  "all observation sequences, lags >= 1, draws",
  "All histories.",
  [S + "ssm/online_smoothing.py: fixed_lag_stitching", S + "ssm/online_smoothing.py: propagate_particle_smoother"])
p("Lag zero smoothing uses the weights",
  "With lag=0 the smoother should behave as a filter. (Fails: weights are zeroed without resampling: shown.)",
  "all inputs with lag 0",
  "Boundary value of a parameter over all inputs.",
  [S + "ssm/online_smoothing.py: propagate_particle_smoother_pf"])
p("Kalman update is Bayes' rule",
  "For every prior mean/covariance, likelihood matrix and noise covariance the filter's update gives the Gaussian whose potential "
  "is prior + likelihood potential up to a constant, for every time step of every series; the covariance stays symmetric and "
  "positive definite.",
  "all dimensions, matrices, observations, lengths",
  "All matrices.",
  [S + "ssm/linear_gaussian/kalman.py: run_kalman_filter_for_marginals"])
p("Kalman filter starts from the initial covariance",
  "The first update should use the model's initial covariance. (Fails: it uses its square root; equal only when the factor equals "
  "the covariance, as in the repo's identity tests: shown.)",
  "all initial covariances",
  "The repo tests only identity covariance.",
  [S + "ssm/linear_gaussian/kalman.py: run_kalman_filter_for_marginals"])
p("Kalman smoother marginals are the smoothing marginals",
  "The backward recursion gives the mean and covariance of the smoothing distribution for every length; the lag-one "
  "moment equals E[x_t x_{t+1}]. (The latter fails: shown.)",
  "all models and lengths",
  "All matrices and lengths.",
  [S + "ssm/linear_gaussian/kalman.py: run_kalman_smoother_for_marginals_and_lag_ones"])
# ---------------------------------------------------------------- ABC
p("ABC weights encode the threshold",
  "VanillaABC gives log weight 0 to exactly the simulations with distance < threshold and -inf to others; ImportanceABC gives "
  "importance - prior on the same set.",
  "all simulations, thresholds",
  "All values.",
  [S + "abc/importance.py: VanillaABC", S + "abc/importance.py: ImportanceABC"])
p("ABC acceptance rate is honoured",
  "With acceptance_rate q and n simulations, at most ceil(q (n-1)) are accepted, and exactly that many when distances are distinct.",
  "all n, q and distance vectors",
  "All vectors, including ties.",
  [S + "abc/importance.py: VanillaABC.clean_chain"])
p("ABC-MCMC never leaves the threshold ball",
  "RandomWalkABC with a fixed threshold never accepts a simulation whose distance is >= threshold or whose prior potential is "
  "+inf/NaN; so once inside, all later states are inside.",
  "all runs",
  "All histories.",
  [S + "abc/mcmc.py: RandomWalkABC"])
p("ABC-SMC bookkeeping",
  "In every state of an ABC-SMC run ess is the number of live particles, a particle is live iff its distance is <= threshold, dead "
  "particles are not moved, and the adaptive threshold never increases when retain * alive * (n-1)/n <= alive - 1. (It can increase otherwise: shown.)",
  "all runs and ensembles",
  "All histories.",
  [S + "abc/smc.py: MetropolisedABCSMCSampler"])
p("ABC diagonal stepsize stays positive",
  "RMMetropolisDiagStepsize keeps every component of the stepsize non-negative (positive if started positive) for ever.",
  "all histories",
  "All histories.",
  [S + "abc/mcmc.py: RMMetropolisDiagStepsize"])
p("SIR epidemic conserves and terminates",
  "In the SIR simulation susceptibles never increase, susceptible+infected never increases, counts stay non-negative, and it stops "
  "after at most 2*S0 + I0 events.",
  "all event sequences with non-zero probability",
  "All random histories.",
  [S + "abc/scenarios/SIR.py"])
p("Exponential event times and priors are non-negative",
  "Waiting times and exponential prior samples should be >= 0 for all uniforms in [0,1). (Fails for u > 1 - 1e-6: shown; exact "
  "range given.)",
  "all uniforms in [0,1)",
  "Probability 1e-6 events.",
  [S + "abc/scenarios/lotka_volterra.py", S + "abc/scenarios/SIR.py"])
p("Transformed priors are changes of variables",
  "constrain and unconstrain are mutually inverse and the transformed prior potential is the original potential at the "
  "constrained point minus the log Jacobian.",
  "all parameters",
  "All parameter values.",
  [S + "abc/scenarios/lotka_volterra.py", S + "abc/scenarios/gk.py"])
p("Gaussian mixture potential is a normalised mixture",
  "exp(-potential) of GaussianMixture should be sum_k w_k N(x; m_k, S_k). (Fails unless all precision determinants are 1 and the Cholesky factors L of the precisions satisfy L'L = LL': the code uses det instead of sqrt det, so components carry weight w_k sqrt(det precision), and squares the factor without a transpose. Exact law, total mass and witnesses proved.)",
  "all mixtures",
  "The repo tests unit covariances only.",
  [S + "scenarios/toy_examples.py: GaussianMixture"])

p("Initial fill rows do not influence the quasi-Newton preconditioner",
  "While the memory is not yet full, the preconditioner should depend on the real rows only. (Holds for the factors: a pair "
  "starting at a fill row contributes none. Fails for the damping: the pair from the last fill row to the first real row enters "
  "the damping constant and changes the factors of real pairs: shown.)",
  "all histories shorter than the memory",
  "Histories are unbounded and the effect only shows for particular curvatures.",
  [S + "mcmc/qn_underdamped.py: QNUnderdamped.startup, update_memory", S + "utils.py: bfgs_sqrt_pqut"])
p("Quasi-Newton proposals are reversible and keep the target for a fixed memory",
  "For every memory the quasi-Newton proposal is an involution on (position, momenta, stored potentials) and preserves volume; "
  "the momentum refresh keeps N(0, B) with B the Hessian approximation; with the memory held fixed, propose/accept keeps "
  "exp(-potential) x N(0, B) restricted to the max_val box.",
  "all memories, gradient fields, stepsizes, numbers of leapfrog steps",
  "Exactness of a measure-theoretic identity cannot be observed on samples.",
  [S + "mcmc/qn_underdamped.py: QNUnderdamped, bfgs_leapfrog"])

p("Preconditioned Gaussian kernel derivatives",
  "For a symmetric precision matrix grad_x and grad_y are the partial derivatives of the kernel. diag_grad_xy should be the vector of "
  "mixed derivatives. (It is in one dimension; in dimension 2 it is a matrix whose entries sum to the wrong value: shown.)",
  "all symmetric precisions, points, bandwidths",
  "Derivatives at all points.",
  [S + "kernels.py: PreconditionedGaussian"])
p("Kernelised Stein discrepancy depends only on normalised weights",
  "ksd is unchanged by adding a constant to all log weights, for any kernel and minibatch choice; equal log weights give the unweighted "
  "value; with full batches it is the root of the weighted double average of the Stein kernel and is invariant under permuting the sample.",
  "all samples, gradients, weights, kernels, batches",
  "All weight vectors.",
  [S + "metrics.py: ksd"])

p("Fixed-lag smoothing keeps the first observation's weights",
  "The smoothed particles at the first time should reflect the first observation. (Fails for backward_sim=True with lag=1: they are for ever the unweighted draws from the initial distribution, reported with uniform weights: shown. With lag >= 2 the first call draws from the weighted filter.)",
  "all models, observation sequences and keys", "All histories; the values look plausible in any one run.",
  [S + "ssm/online_smoothing.py: propagate_particle_smoother_bs"])

p("First draw of the optimal and ensemble Kalman filters is the posterior given the first observation",
  "The first particles of OptimalNonLinearGaussianParticleFilter and EnsembleKalmanFilter should be draws from p(x_0 | y_0), with the reported potential the potential of that draw. (Holds for diagonal covariances. Fails for a non-diagonal initial covariance, where the factor of the initial precision is squared without a transpose: shown.)",
  "all models with linear Gaussian observations, all first observations", "All covariance matrices.",
  [S + "ssm/nonlinear_gaussian.py: OptimalNonLinearGaussianParticleFilter.startup, initial_sample", S + "ssm/nonlinear_gaussian.py: EnsembleKalmanFilter"])
p("Ensemble Kalman analysis stays in the span of the forecast ensemble",
  "Every new member of EnsembleKalmanFilter is its forecast plus a linear combination of forecast deviations; a linear quantity shared by all forecast members is kept; the gain is the Kalman gain for the sample covariance of the forecast.",
  "all models, ensembles of at least two members, observations and keys", "All ensembles.",
  [S + "ssm/nonlinear_gaussian.py: EnsembleKalmanFilter.propose_and_intermediate_weight_vectorised"])

p("Lotka-Volterra observations are the simulated state at the observation times",
  "Each row returned by the Lotka-Volterra simulator is the population in force at its observation time: the state after the last event not later than that time. The data of the scenario are the numbers of prey in these rows, for rates x (plain) or exp x (transformed). (Holds when the simulation reaches the last observation time within max_iter events, the first time is 0 and the uniforms stay below 1 - 1e-6. Fails when max_iter is used up: the rows then repeat the last simulated state as if it had been observed: shown.)",
  "all rates, initial populations, observation times and random draws", "All event histories.",
  [S + "abc/scenarios/lotka_volterra.py: lotka_volterra_simulate"])
p("One-parameter g-and-k is the four-parameter g-and-k with B, g, k fixed",
  "GKOnlyAUniformPrior and GKOnlyATransformedUniformPrior should simulate the g-and-k variable with the fixed B, g, k of the object. (Holds only if c = k: the exponent used is c, and k is never read: shown for the default settings and every non-zero draw.)",
  "all parameters and draws", "All draws; the values look plausible in any one run.",
  [S + "abc/scenarios/gk.py: GKOnlyAUniformPrior, GKOnlyATransformedUniformPrior"])

p("Banana and funnel targets",
  "Banana is the image of the standard normal under (z0, z1) -> (sqrt(l) z0, z1 - c l z0^2 + l c), with normalising constant 2 pi sqrt(l). Neal's funnel should be x1 ~ N(0, 3), x0 | x1 ~ N(0, exp(x1/2)). (Fails: the state-dependent normaliser of the conditional is left out, which makes it the funnel with x1 ~ N(3/4, 3): shown.)",
  "all points, all curvinesses and lengths", "A density at all points.",
  [S + "scenarios/twodim/toy_examples.py: Banana, NealFunnel"])
p("Double well and Rastrigin have the advertised modes and are proper",
  "DoubleWell has its minima exactly at the points with all coordinates +1 or -1; Rastrigin with a >= 0 is non-negative and zero only at the origin; exp(-potential) of both is integrable with positive integral in every dimension.",
  "all dimensions, points, amplitudes a >= 0", "All points of an unbounded space.",
  [S + "scenarios/toy_examples.py: DoubleWell, Rastrigin"])
p("Stochastic volatility potentials describe the distributions that are sampled",
  "Each potential of StochasticVolatility should be, up to a constant, minus the log density of the corresponding sample function. (Holds for vector likelihood_covariance_diag, and for transitions over unit time steps with diagonal covariances. Fails for transitions over any other step: the sample has variance dt, the potential 1/dt; and for the default likelihood_covariance_diag, a matrix, where the state-dependent normaliser is dropped and simulated observations are matrices: shown.)",
  "all states, observations, time steps, covariances", "Equality of distributions for all parameters.",
  [S + "ssm/scenarios/stochastic_volatility.py: StochasticVolatility"])
p("One-dimensional benchmark potentials describe the distributions that are sampled",
  "For NonLinear1DBenchmark each potential is minus the log density of the corresponding sample function, plus the log standard deviation, a constant; transition mean x/2 + 25x/(1+x^2) + 8cos(1.2t), observation mean x^2/20.",
  "all states, observations, times, standard deviations", "Equality of distributions for all parameters.",
  [S + "ssm/scenarios/nonlinear1d.py: NonLinear1DBenchmark"])
p("Lorenz dynamics",
  "Lorenz 96 commutes with rotating the ring of sites, its quadratic terms conserve energy, and with an exact integrator transitions stay in every ball of squared radius at least d F^2 they start in, for every dimension and time step. Lorenz 63 has the symmetry (x, y, z) -> (-x, -y, z) and exactly the three classical fixed points for rho > 1.",
  "all dimensions, states, forcings, time steps", "All states and unbounded times.",
  [S + "ssm/scenarios/lorenz96.py: lorenz96_dynamics", S + "ssm/scenarios/lorenz63.py: lorenz63_dynamics"])

p("Backward resampling draws from the backward distribution",
  "Given the particles at the next time, full resampling and rejection resampling draw the particles independently, candidate j with probability proportional to its weight times its transition density, whatever the number of rejections allowed. (Holds for full resampling, and for rejection when the bound parameter is at least every transition density. Fails for the default bound parameter 0, where the bound is guessed from the candidates met so far: shown with a candidate drawn with probability at least 0.49 instead of 1/101.)",
  "all weights, transition potentials, bound parameters, inflation factors, rejection limits, numbers of particles, with ideal random numbers", "A probability law of a loop with a random number of rounds.",
  [S + "ssm/backward.py: rejection_resampling, full_resampling", S + "ssm/online_smoothing.py: rejection_stitching"])
p("Backward simulation draws trajectories from the backward Markov chain",
  "The trajectories returned by backward_simulation are independent draws from the backward chain of the filter: the last index with the filter weights of the last time, each earlier one with the filter weights of its time times the transition densities to the particle chosen after it; without rejection, and with rejection for a bound parameter at least every transition density.",
  "all filter outputs, lengths, numbers of trajectories, rejection limits, with ideal random numbers", "The joint law of whole trajectories.",
  [S + "ssm/backward.py: backward_simulation, backward_simulation_rejection, backward_simulation_full"])

p("Tempered SMC estimates are unbiased",
  "With a fixed temperature schedule and initial values from the prior, after every number of updates exp(log_norm_constant) times the weighted mean of f is an unbiased estimate of the integral of f times the tempered likelihood over the prior; in particular exp(log_norm_constant) is unbiased for the normalising constant, resampled or not. (Holds with inner sampler RandomWalk, and Underdamped with its default infinite friction. Fails for Underdamped with finite friction, whose momenta start at zero instead of from their stationary law: shown with an estimate that is 0 instead of 1.)",
  "all priors and likelihoods, non-negative test functions, numbers of particles, dimensions, stepsizes, numbers of inner and leapfrog steps, resampling thresholds, schedules of non-zero temperatures, with ideal random numbers", "An expectation over all random histories, exact for finitely many particles.",
  [S + "transport/smc.py: MetropolisedSMCSampler, TemperedSMCSampler, SMCSampler", S + "mcmc/standard_mcmc.py: RandomWalk, Underdamped"])

p("Particle filters give unbiased likelihood estimates",
  "For run_particle_filter_for_marginals started from the first observation, the product over times of the ratios of total weights (the denominator being n where the reported ESS made the filter resample) times the weighted mean of f at the last time is an unbiased estimate of the expectation under the model of f of the last state times the likelihoods of all observations; with f = 1, of the marginal likelihood. This holds for the bootstrap filter on every state-space model with finite potentials, for every filter whose proposals are properly weighted, and for the optimal filter of a nonlinear Gaussian model, whose first draws take the place of prior and first likelihood.",
  "all models, observations, times, numbers of particles, resampling thresholds, non-negative test functions, with ideal random numbers", "An expectation over all random histories, exact for finitely many particles.",
  [S + "ssm/filtering.py: run_particle_filter_for_marginals, initiate_particles, BootstrapFilter, ParticleFilter", S + "ssm/nonlinear_gaussian.py: OptimalNonLinearGaussianParticleFilter"])

p("ABC-MCMC leaves the ABC posterior invariant",
  "For every prior, simulator, distance, threshold and stepsize, if the state and data of a RandomWalkABC chain are distributed as the prior and its simulated data conditioned on the distance being below the threshold, they are so after every number of updates; in particular the states keep the ABC posterior as their law.",
  "all priors, simulators, distances, thresholds, stepsizes, dimensions, numbers of updates, with ideal random numbers", "A law over all random histories and all simulators.",
  [S + "abc/mcmc.py: RandomWalkABC", S + "abc/abc.py: ABCSampler, ABCScenario"])

p("Importance ABC estimates are unbiased",
  "Rows of a vanilla or importance ABC run are independent draws, and the sum of exp(log_weight) f over n rows is an unbiased estimate of n times the integral of f over the prior and its simulated data restricted to distances below the threshold. (Holds for VanillaABC, and for all rows of ImportanceABC but the first, which is drawn from the prior and weighted as a draw from the proposal: shown with an expected total weight of n + 1 instead of n.)",
  "all priors, proposals whose support includes that of the prior, simulators, distances, thresholds, numbers of rows, non-negative test functions, with ideal random numbers", "An expectation over all random draws of arbitrary simulators.",
  [S + "abc/importance.py: VanillaABC, ImportanceABC"])

p("Kernelised Stein discrepancy of exact draws vanishes like 1/n",
  "For the Gaussian kernel, if the sample consists of n independent exact draws from a smooth target and ksd is given that target's gradients, the expected squared discrepancy is a constant divided by n (the Stein kernel has mean zero under the target). Without minibatches the number under the root is never negative, so ksd is not NaN. (The identity holds if the gradient of the log density is passed. ksd reads grad_potential from the sample, the gradient of minus the log density, and does not change its sign: then the mean square stays above a positive constant for every n. With minibatches the number under the root can be negative, which gives NaN.)",
  "all dimensions, bandwidths, smooth normalised targets with square-integrable gradient, sample sizes; all gradients and weights for the sign of the sum",
  "An expectation over all draws for all targets and sizes; the repo's tests only compare two sample sizes, which cannot see a bias that remains in the limit.",
  [S+"metrics.py: ksd", S+"kernels.py: Gaussian"])
p("Squared jumping distance is the mean squared step of the chain",
  "On a series of n+1 states it is the average of the n squared differences of successive states: never negative, zero exactly when the chain never moves, unchanged by shifting or reversing the series, and scaled by a^2 when the series is scaled by a.",
  "all series and lengths >= 2, all shifts and scales",
  "All series; tests fix one.",
  [S+"metrics.py: squared_jumping_distance"])

p("Forward filtering backward simulation samples whole trajectories correctly",
  "forward_filtering_backward_simulation returns one trajectory per requested sample, one state per observation time. For each of them and any function h of the whole path, the expectation of (the filter's likelihood estimate times h of the trajectory) equals the expectation under the model of h of the hidden path times the likelihoods of all observations: weighted by the likelihood estimate, a returned trajectory is an exact draw from the smoothing distribution, with no bias for any number of particles. With rejection, the initial bound must bound the transition density.",
  "all models with transition densities, filters with properly weighted proposals, numbers of particles and samples, ESS thresholds, data, times, rejection settings with a valid bound, non-negative functions of paths",
  "An expectation over all draws of two coupled random passes, at every particle number and horizon; tests see one seed and allow Monte Carlo error.",
  [S+"ssm/backward.py: forward_filtering_backward_simulation, backward_simulation", S+"ssm/filtering.py: run_particle_filter_for_marginals"])

p("Tempered ensemble Kalman inversion targets the tempered posterior",
  "For a linear simulator with Gaussian noise and a Gaussian prior, in the limit of a large ensemble (covariances those of the law of the members), after the update to temperature T the members are distributed as the prior times the likelihood to the power T, whatever the schedule; if the schedule goes from 0 to 1 they end distributed as the posterior. For finite ensembles the same rule is applied with the sample covariances, and if the perturbations have the sample moments they are drawn with, mean and sample covariance of the ensemble change by the Kalman formulas of the step.",
  "all linear maps, positive definite noise and prior covariances, prior means, data, dimensions, strictly increasing schedules of any length; all finite ensembles with perturbations of exact moments; no nugget",
  "An identity of distributions over all models and schedules; sampling tests see one model up to Monte Carlo error.",
  [S+"transport/teki.py: TemperedEKI.update, calculate_covariances"])

p("Ensembles of TEKI use fresh, independent randomness at every stage",
  "A TemperedEKI run is a Markov chain on (values, simulated data): at each update the perturbations are independent standard normals scaled as C92 says, and the new data are drawn from the simulator independently for all members, each at the member's new value, independently of everything drawn before. Hence at every stage after startup, given the values, the simulated data are independent exact draws at those values.",
  "all measurable simulators, data, ensemble sizes, dimensions, nuggets, schedules (given or default), numbers of updates, keys and initial values, with ideal random numbers",
  "A joint law over all random histories; tests with one seed cannot see a reused key or data simulated at stale values.",
  [S+"transport/teki.py: TemperedEKI.startup, TemperedEKI.update, next_temperature"])

p("num_transition_evals is an honest count",
  "The trajectories returned by backward_simulation (with or without rejection) are determined by as many transition densities as num_transition_evals reports in total: changing the model's transition density anywhere else changes nothing. Per time step the count is n_pf * n_samps without rejection; with at most R >= 1 rounds it lies between n_samps and n_samps * R + n_pf * n_samps; the last time counts 0. Every call of an online smoother appends one number, with the same meaning except that, once the lag is reached, n further densities (those of the transitions that are cut) are used and not counted.",
  "all models, filters, weights, keys, numbers of particles and samples, rejection settings, bounds, times",
  "A statement about every other transition density that agrees at the points consulted; a test compares numbers on one model.",
  [S+"ssm/backward.py: rejection_resampling, backward_simulation", S+"ssm/online_smoothing.py: rejection_stitching, fixed_lag_stitching, propagate_particle_smoother"])

p("RMMetropolisedSMCSampler steers the stepsize and nothing else",
  "The tuned parameter recorded in every row of state k is the initial one times exp(rm_stepsize * sum over the k updates of (mean acceptance - target)), the mean acceptance being the average of the particles' acceptance probabilities under their normalised weights: positive for ever, growing exactly when the acceptance is above target, with each change of its logarithm at most rm_stepsize * max(target, 1 - target). Every move of the next update uses exactly the recorded value; particles, weights and temperatures are otherwise those of the plain Metropolised sampler; the chain of a run carries one stepsize per state.",
  "all targets, inner samplers that keep their parameters, numbers of particles, schedules or adaptive temperatures, target acceptances, Robbins-Monro stepsizes, keys, numbers of updates",
  "A closed form over the whole history of acceptances; tests look at one final acceptance rate.",
  [S+"transport/smc.py: RMMetropolisedSMCSampler"])

p("Gradients recorded by tempered SMC belong to the recorded values",
  "After every update each particle's grad_prior_potential and grad_likelihood_potential are the gradients at its own value, and grad_potential is the gradient of the tempered potential at the temperature recorded. (Holds with Underdamped as inner sampler. With RandomWalk it is false: gradients are computed once at initialisation, then only resampled; every recorded gradient is that at some initial value.)",
  "all targets, numbers of particles, schedules, inner steps, keys, numbers of updates",
  "An invariant over all histories of moves, rejections and resampling.",
  [S+"transport/smc.py: TemperedSMCSampler.adapt, MetropolisedSMCSampler", S+"mcmc/standard_mcmc.py: RandomWalk, Underdamped"])

p("ABC-SMC stops exactly when its acceptance rate is exhausted",
  "The default ABC-SMC sampler moves every particle with weight by mcmc_steps updates of the inner sampler and records as its alpha the mean acceptance probability of those updates; alpha_mean is the mean of alpha over the particles that had weight when they were moved. A run makes updates until alpha_mean is at most termination_alpha or max_iter is reached, and neither stops earlier nor goes on. With the default inner sampler the stepsize used for the next moves is 2.38^2/d times the unbiased sample variance of the current particles, coordinate by coordinate.",
  "all scenarios, inner samplers, thresholds (scheduled or adaptive), numbers of particles, settings, keys, numbers of updates",
  "A statement about every state of every run, including runs where particles die or nothing has weight.",
  [S+"abc/smc.py: MetropolisedABCSMCSampler, adapt_stepsize_scaled_diag_cov"])

p("ABC-SMC estimates are unbiased",
  "Run ABC-SMC with a non-increasing threshold schedule, RandomWalkABC with Metropolis and a fixed stepsize as inner sampler, from particles drawn from the prior with data simulated at them. After every number of updates, for every non-negative function f of parameter and data, the mean of f over all particles (0 for particles without weight) times the product over the earlier resampling steps of the fraction of particles with weight is an unbiased estimate of the integral of f over prior times simulator restricted to data within the current threshold. For f = 1 the product of the fractions is an unbiased estimate of the prior probability of data within the threshold.",
  "all priors with a potential and a sampler for it, simulators, real-valued distances, non-increasing schedules, stepsizes, numbers of particles, resampling thresholds, inner steps, keys, numbers of updates, non-negative measurable f",
  "A statement about expectations over all random draws of a run of any length; sampling can only suggest it.",
  [S+"abc/smc.py: MetropolisedABCSMCSampler", S+"abc/mcmc.py: RandomWalkABC", S+"transport/smc.py: SMCSampler.update", S+"transport/sampler.py: TransportSampler.startup"])

p("A program that calls run several times gets from each call the parameters it asked for, and chain.summary reports them",
  "In any sequence of calls of run on any sampler objects and extra objects, a call whose initial_extra was not given to an earlier call starts from the caller's own value in initial_extra, else its keyword argument, else the last keyword argument given to the same sampler object, else that object's value; other samplers and extras make no difference. Its summary reports that value, if no later call changes it by keyword and initial_extra did not override it. (Beyond these conditions the code falls short: the summary refers to the sampler's live parameters, so later calls rewrite the summaries of earlier chains and values from initial_extra are not shown; and an initial_extra object that has been used keeps the first call's parameters whatever keyword arguments follow.)",
  "all worlds of sampler and extra objects, all finite sequences of run calls with any keyword arguments, all parameters, all positions in the sequence",
  "Ranges over all histories of calls sharing objects; a test exercises one history.",
  [S+"sample.py: run, Sampler.startup, Sampler.summary"])

p("A reused initial_state starts a run with the evaluations of its current value",
  "Whatever runs a state object was given to before (any sampler, any scenario) and whatever values were assigned to it in between, a run given the object starts from its current value, with the potential and gradients of that value in the scenario of this run. (True of RandomWalk and Underdamped. QNUnderdamped keeps whatever evaluations the object already has: true only if the value was left alone and all earlier runs had the same prior and likelihood.)",
  "all state objects, all finite sequences of runs and assignments to value, all scenarios and temperatures",
  "Quantifies over all histories of an object shared between runs.",
  [S+"mcmc/standard_mcmc.py: RandomWalk.startup, Underdamped.startup", S+"mcmc/qn_underdamped.py: QNUnderdamped.startup"])

p("The linear Gaussian inverse problem is the model it is given, with its exact Gaussian posterior",
  "LinearGaussian(prior_mean, prior_covariance, data, likelihood_matrix, likelihood_covariance): construction fails exactly if no argument but the data is an array; otherwise dim and dim_obs are those of the arrays, floats standing for constant vectors and multiples of the identity. prior_sample followed by likelihood_sample, with different keys, draws from the joint law x ~ N(m, P), y ~ N(H x, R). exp(-prior_potential) is the density of N(m, P), and exp(-(prior_potential + likelihood_potential)) is the evidence N(y; H m, H P H' + R) times the density of the posterior N(m + K (y - H m), P - K H P). (The statements about potentials hold for float and diagonal covariances, and the evidence constant for array data; they fail for full covariances and for float data with several observations; with a 1-d covariance array prior_sample adds one number to all coordinates.)",
  "all arguments of consistent shapes with positive definite covariances, all dimensions, keys, parameters",
  "An identity between densities and laws on all of R^d for every model; a test compares finitely many numbers.",
  [S+"abc/scenarios/linear_gaussian.py: LinearGaussian", S+"utils.py: extract_dimension, reset_covariance, gaussian_potential"])

p("ABC answers become exact posterior answers as the threshold shrinks",
  "For a simulator whose data have, given the parameter, a bounded density that is continuous at the observed data, and a prior under which the evidence is positive, the expectation of any bounded function under the ABC posterior with the default distance function (the law the ABC samplers leave invariant or sample from, C87, C88, C98) tends, as the threshold goes to 0, to its expectation under the exact posterior. For the linear Gaussian inverse problem with float or diagonal covariances the limit is the expectation under N(m + K (y - H m), P - K H P).",
  "all finite priors, simulators with such a density, observed data, bounded measurable functions, dimensions",
  "A limit statement; no finite set of thresholds settles it.",
  [S+"abc/abc.py: ABCScenario.distance_function", S+"abc/importance.py: VanillaABC", S+"abc/mcmc.py: RandomWalkABC", S+"abc/scenarios/linear_gaussian.py: LinearGaussian"])

p("A run uses the correction last given to its sampler, with the settings last given to it",
  "The correction of an MCMC run is the one passed by keyword, else the last one passed to the same sampler object, else the sampler's own: an object is used itself, a class gives an object of that class, None means no correction, anything else raises TypeError. Settings of RMMetropolis (adapt_cut_off, rm_stepsize_scale, rm_stepsize_neg_exponent, log_update) have the values last given by keyword to a run using that object, else those at construction; the update rule follows log_update and the tuning is that of the sampler being run. Objects made from a class are never shared between samplers. (A rejected correction stays on the sampler, so the next call without a correction raises too: shown.)",
  "All sequences of calls of run on any number of samplers and correction objects, with any corrections and keyword arguments",
  "The outcome depends on the whole history of calls through objects shared between runs",
  [S+"mcmc/sampler.py: MCMCSampler.startup, Correction.startup, check_correction", S+"mcmc/metropolis.py: RMMetropolis.__init__, RMMetropolis.startup"])
p("The parameters a run records are those its updates use",
  "The stepsize, friction and number of leapfrog steps used by a run of Underdamped, and the value at which Robbins-Monro adaptation starts, are those in the run's recorded parameters: the caller's extra, else the keyword, else the sampler's value, else 2.38^2/dim for the tuned parameter. (Fails for leapfrog_steps given in initial_extra, which is recorded but not used, and for a tuned parameter given in initial_extra while the sampler's is None, which is overwritten: shown.)",
  "All samplers, keyword arguments, extras, start states, numbers of steps, targets",
  "The deviation shows only for particular combinations of where a value is given",
  [S+"mcmc/standard_mcmc.py: Underdamped.always, Underdamped.proposal", S+"mcmc/metropolis.py: RMMetropolis.startup", S+"sample.py: Sampler.startup"])

p("Gradient functions of a state-space model are those of its current potentials",
  "After any sequence of assignments to the constants of a state-space model, grad_initial_potential, grad_transition_potential and grad_likelihood_potential are the gradients of the current potentials with respect to the states, and the ..._potential_and_grad functions return the current value together with that gradient. (Fails for likelihood_potential_and_grad, which is built from the initial potential; after a potential itself is assigned; and for classes with a gradient of their own, whose ..._and_grad is missing: shown.)",
  "All models, all sequences of assignments, all arguments",
  "Staleness depends on the history of assignments",
  [S+"ssm/ssm.py: StateSpaceModel.__init__"])

p("ABC and ensemble Kalman runs start from data simulated at their own start values",
  "Whatever runs a start-state object was used for before, a run of an ABC or ensemble Kalman sampler from it starts with data simulated at its value, and for ABC with the prior potential of its value and the distance of those data in the scenario of the run, and for ABC-SMC with the first threshold of the sampler. (Fails once the value is changed, the scenario or its data are changed, or the first threshold is changed: shown.)",
  "All scenarios, samplers, keys and sequences of runs",
  "Staleness depends on the history of runs",
  [S+"abc/abc.py: ABCSampler.startup", S+"abc/smc.py: ABCSMCSampler.startup", S+"transport/teki.py: TemperedEKI.startup"])

p("Ensemble Kalman inversion stops by spread only when the ensemble has contracted",
  "A run stops at the first ensemble that has reached the maximum temperature or number of updates, contains a NaN, or whose sample standard deviation is below term_std times that of the initial ensemble in every coordinate; no earlier ensemble meets any of these. (Fails for scenarios with constrain: the constrained ensemble is compared with the unconstrained initial one: shown.)",
  "All scenarios, ensembles of at least two, settings and keys",
  "All ensembles and runs",
  [S+"transport/teki.py: TemperedEKI.termination_criterion"])

p("Tempered SMC answers converge to the exact posterior answers",
  "With a fixed increasing temperature schedule, a likelihood that is bounded and initial values from the prior, the weighted mean of a bounded function f over the particles, after every number of updates, is within any given distance of its mean under the tempered posterior with probability at least 1 - C / n, where C depends neither on the number n of particles nor on the settings of the sampler; and exp(log_norm_constant) is likewise close to the normalising constant. (For inner sampler RandomWalk, and Underdamped with its default infinite friction.)",
  "all priors, bounded likelihoods, bounded measurable functions, tolerances, numbers of particles, dimensions, stepsizes, numbers of inner and leapfrog steps, resampling thresholds, increasing schedules of positive temperatures, with ideal random numbers",
  "A bound on the probability of error for every number of particles; a test sees a few draws.",
  [S + "transport/smc.py: MetropolisedSMCSampler, TemperedSMCSampler, SMCSampler", S + "mcmc/standard_mcmc.py: RandomWalk, Underdamped"])

p("Particle filters converge to the exact filtering distribution",
  "For run_particle_filter_for_marginals started from the first observation, the weighted mean of a bounded function over the particles at the last time is within any given distance of its mean under the filtering distribution (given by prediction and update from the model) with probability at least 1 - C / n, where C does not depend on the number n of particles or on the resampling threshold; the likelihood estimate formed from weights and ESS is likewise close to the marginal likelihood. This holds for the bootstrap filter on every state-space model with bounded likelihood, in particular on every nonlinear Gaussian model, and for the optimal filter of a nonlinear Gaussian model, whose first draws take the place of prior and first likelihood.",
  "all models, observations, times, bounded measurable functions, tolerances, numbers of particles, resampling thresholds, with ideal random numbers",
  "A bound on the probability of error for every number of particles; a test sees a few draws.",
  [S + "ssm/filtering.py: run_particle_filter_for_marginals, initiate_particles, BootstrapFilter, ParticleFilter", S + "ssm/nonlinear_gaussian.py: OptimalNonLinearGaussianParticleFilter"])

p("Averages over a random-walk Metropolis run converge to posterior means",
  "For every integrable quantity, the mean over the rows of a run of RandomWalk with Metropolis tends in probability to its mean under exp(-potential) as the number of rows grows, from every start, including starts outside the support.",
  "all dimensions, potentials (infinite outside any measurable support) of finite positive mass, positive stepsizes, starts, keys, integrable quantities and tolerances, with ideal random numbers",
  "A limit over run lengths; a test sees one short run.",
  [S + "mcmc/standard_mcmc.py: RandomWalk", S + "mcmc/metropolis.py: Metropolis", S + "sample.py: run"])

p("Averages over a Langevin run converge to posterior means",
  "For every integrable quantity, the mean over the rows of a run of Underdamped with positive or infinite friction tends in probability to its posterior mean as the number of rows grows, from every start. (Holds for the default of one leapfrog step. Fails for two: with a standard normal posterior, infinite friction and stepsize sqrt(2) every row has the same square: shown.)",
  "all dimensions, finite potentials with measurable gradient of finite mass, positive stepsizes, starts, keys, integrable quantities and tolerances, with ideal random numbers",
  "A limit over run lengths; a test sees one short run.",
  [S + "mcmc/standard_mcmc.py: Underdamped", S + "mcmc/metropolis.py: Metropolis", S + "utils.py: leapfrog", S + "sample.py: run"])

p("Averages over an ABC-MCMC run converge to means under the ABC posterior",
  "For every integrable quantity of parameter and simulated data, the mean over the rows of a run of RandomWalkABC with Metropolis tends in probability to its mean under the ABC posterior (prior times the event that simulated data fall within the threshold) as the number of rows grows, from every start, including starts whose data are outside the threshold.",
  "all dimensions, priors (infinite potential outside any measurable support), simulators, distances, thresholds, positive stepsizes, starts, keys, integrable quantities and tolerances, with ideal random numbers",
  "A limit over run lengths; a test sees one short run.",
  [S + "abc/mcmc.py: RandomWalkABC", S + "mcmc/metropolis.py: Metropolis", S + "sample.py: run"])

p("Rows of a random-walk Metropolis run converge in distribution",
  "From every start, including starts outside the support, the distribution of row j of a run of RandomWalk with Metropolis tends to exp(-potential), normalised, uniformly over all events: for every eps there is a J such that for every later row, every run long enough to have it, every key and every event the probability of the event is within eps of its posterior probability.",
  "all dimensions, potentials (infinite outside any measurable support) of finite positive mass, positive stepsizes, starts, keys, run lengths, events and tolerances, with ideal random numbers",
  "A limit, uniform over all events; a test sees one draw of one row.",
  [S + "mcmc/standard_mcmc.py: RandomWalk", S + "mcmc/metropolis.py: Metropolis", S + "sample.py: run"])

p("Rows of a Langevin run converge in distribution",
  "From every position and momenta, the distribution of row j of a run of Underdamped with positive or infinite friction tends to the posterior with independent standard normal momenta, uniformly over all events. (Holds for the default of one leapfrog step. Fails for two: with a standard normal posterior, infinite friction, stepsize sqrt(2) and start 1 every row has square 1: shown.)",
  "all dimensions, finite potentials with measurable gradient of finite mass, positive stepsizes, starts, keys, run lengths, events and tolerances, with ideal random numbers",
  "A limit, uniform over all events; a test sees one draw of one row.",
  [S + "mcmc/standard_mcmc.py: Underdamped", S + "mcmc/metropolis.py: Metropolis", S + "utils.py: leapfrog", S + "sample.py: run"])

p("Rows of an ABC-MCMC run converge in distribution to the ABC posterior",
  "From every start, including starts whose data are outside the threshold, the joint distribution of parameter and data in row j of a run of RandomWalkABC with Metropolis tends to the ABC posterior, uniformly over all events.",
  "all dimensions, priors (infinite potential outside any measurable support), simulators, distances, thresholds, positive stepsizes, starts, keys, run lengths, events and tolerances, with ideal random numbers",
  "A limit, uniform over all events; a test sees one draw of one row.",
  [S + "abc/mcmc.py: RandomWalkABC", S + "mcmc/metropolis.py: Metropolis", S + "sample.py: run"])

p("The posterior is the only distribution a Metropolis update keeps",
  "If the second row of a run has the same distribution as the first, that distribution is the posterior: for RandomWalk, for Underdamped with positive or infinite friction and one leapfrog step (for position and momenta jointly, independent standard normal momenta), and (with the ABC posterior, for parameter and data jointly) for RandomWalkABC, each with Metropolis.",
  "all settings as in the three properties before, all probability distributions of the first row",
  "Ranges over all distributions.",
  [S + "mcmc/standard_mcmc.py: RandomWalk, Underdamped", S + "abc/mcmc.py: RandomWalkABC", S + "mcmc/metropolis.py: Metropolis", S + "sample.py: run"])

p("Automatic plot limits of two-dimensional scenarios show the mass, with a margin",
  "auto_axes_lims ends for every scenario and sets limits that contain, with a margin of five per cent on each side, every point of its grid whose density is more than a tenth of the largest; plot without limits uses the limits of the potential it draws. Axes or limits the caller passes are used as they are and not stored. (Fails: the margin is computed but not used, so every side of the frame passes through such a point; constant densities, and densities that are zero everywhere, make it recurse without end; plot keeps the first limits when the potential changes: all shown. Proved: when it ends, all those points are inside and none is on the edge of the grid searched; it ends if the first grid has positive density and its edge has none above a tenth.)",
  "all two-dimensional potentials with float values (including infinite and nan), all numbers of recursive calls, all histories of plots",
  "Ranges over all densities; tests plot a few that fit in the first grid.",
  [S + "scenarios/twodim/vectorise.py: auto_axes_lims, plot, _find_first_non_zero_row"])

p("SVGD uses the kernel parameters it was given",
  "Every update of an SVGD run uses the kernel parameters the caller last assigned in the kernel_params given to the sampler, else in the kernel given; a sampler without kernel uses for each update the mean-rule bandwidth of the current ensemble. Earlier runs, of this or of other samplers sharing the same objects, make no difference. (Fails: kernel_params given without a kernel are overwritten, in the caller's own object, so a run of one sampler changes the bandwidth of another that shares it: shown. Proved for samplers with a kernel as long as no sampler without kernel ran with the same kernel_params, and for samplers without kernel without exception.)",
  "all kernels, kernel parameters, histories of assignments and runs of any samplers sharing parameter objects, ensemble sizes, dimensions, batch sizes, numbers of updates",
  "Ranges over all histories of shared mutable objects.",
  [S + "transport/svgd.py: SVGD.__init__, SVGD.startup, SVGD.update, adapt_bandwidth_mean", S + "kernels.py: mean_bandwidth_update", S + "sample.py: Sampler.startup"])

p("Simulated epidemics and predator-prey histories have the law of the Markov jump process",
  "For every sequence of states and every sequence of sets of waiting times, the probability that the first n events of a simulation of SIR (with plain or transformed parameters) or Lotka-Volterra are these transitions with waiting times in these sets differs by at most n times 1e-6 (the offset the code adds to its uniform draws) from the probability under the Markov jump process with the model's rates: exponential waiting times with the total rate, transitions in proportion to their rates.",
  "all initial counts, non-negative rates (removal rate positive for SIR), numbers of events up to max_iter, sequences of states, measurable sets of waiting times, keys, with ideal random numbers",
  "A statement about probabilities of histories of any length; a test sees one history.",
  [S + "abc/scenarios/SIR.py: sir_single_step, sir_simulate, SIR.simulate_times_and_si, TransformedSIR.simulate_times_and_si", S + "abc/scenarios/lotka_volterra.py: lotka_volterra_single_step"])

p("ABC prior samples are drawn from the prior that prior_potential describes",
  "prior_sample draws from the distribution with density proportional to exp(-prior_potential): exactly for g-and-k (uniform and transformed), and up to 1e-6 per parameter, uniformly over all events, for SIR and Lotka-Volterra. (Fails for SIR and Lotka-Volterra with untransformed parameters: prior_potential is finite for negative parameters, where exp(-prior_potential) has infinite mass, so there is no such distribution: shown. Proved there for the density restricted to positive parameters; proved without restriction for the transformed scenarios.)",
  "all dimensions, positive prior rates, boxes, keys, measurable events, with ideal random numbers",
  "A statement about the probabilities of all events.",
  [S + "abc/scenarios/SIR.py: prior_sample, prior_potential", S + "abc/scenarios/lotka_volterra.py: prior_sample, prior_potential", S + "abc/scenarios/gk.py: prior_sample, prior_potential"])

p("Simulated Ricker data are Poisson counts of the Ricker map's path",
  "ricker_simulate returns the initial population and num_steps further ones, each r N exp(-N + sd z) with N the one before and z a normal draw of its own; positive populations stay positive and the next one is at most r exp(-1 + sd z), extinct ones stay extinct. likelihood_sample returns one count per observation index, never negative, and the probability of any counts is that of independent Poisson counts with mean scale times the population at these indices, averaged over standard normal noise.",
  "all parameters (growth rate, initial population and scale non-negative for the law), numbers of steps, lists of observation indices up to num_steps, counts, keys, with ideal random numbers",
  "Ranges over all lengths and all draws; the law is a statement about probabilities.",
  [S + "abc/scenarios/ricker.py: ricker_simulate, Ricker.likelihood_sample"])

p("Simulated g-and-k data have the g-and-k distribution",
  "full_data_sample with n data draws, up to 2 * buffer per datum and uniformly over all events, n independent values from the g-and-k distribution with the given (or constrained) parameters: the law of A + B (1 + c tanh(g z / 2)) (1 + z^2)^k z for standard normal z. likelihood_sample is the same for any summary of the data.",
  "all parameters, buffers in [0, 1/2), numbers of data, measurable events and summaries, keys, with ideal random numbers",
  "A statement about the probabilities of all events.",
  [S + "abc/scenarios/gk.py: GKUniformPrior.full_data_sample, GKTransformedUniformPrior.full_data_sample, _GK.likelihood_sample"])

p("ABC-SMC converges as the number of particles grows",
  "Fix a scenario whose prior sampler draws from its prior, a non-increasing schedule of thresholds, a number of updates k, a bounded function f of parameter and simulated data and a tolerance. Running an ABC-SMC sampler with a RandomWalkABC inner sampler of fixed stepsize: the probability that the mean of f over the particles that still have weight after k updates differs by the tolerance or more from its expectation under the prior predictive conditioned on data within the threshold is at most a constant over the number of particles. The constant does not depend on the configuration, the stepsize or the key. The same holds for the estimate of the probability of data within the threshold, and the probability that no particle has weight is at most a constant over the number of particles.",
  "all priors, simulators, distances, non-increasing threshold schedules that are not hit with positive probability, numbers of updates, bounded measurable functions, tolerances, numbers of particles, stepsizes and keys",
  "it bounds the probability of a deviation over all random streams, for every ensemble size, with one constant",
  [S+"abc/smc.py: MetropolisedABCSMCSampler", S+"abc/mcmc.py: RandomWalkABC", S+"transport/smc.py: SMCSampler.update"])

p("Runs of the ensemble Kalman filter keep equal weights",
  "With an ESS threshold of at most 1, running the ensemble Kalman filter over any observations, at once or one at a time, never resamples: every log weight reported is 0, every effective sample size is the number of particles, the reported times and observations are those given, and each reported ensemble is the ensemble Kalman update of the one before.",
  "all models, numbers of particles, observations, times, thresholds up to 1, draws and keys",
  "A run looks plausible whatever the weights are; that no step ever resamples or reweights must be shown for all observation sequences.",
  [S+"ssm/nonlinear_gaussian.py: EnsembleKalmanFilter", S+"ssm/filtering.py: run_particle_filter_for_marginals, propagate_particle_filter"])


p("The ensemble Kalman filter tends to the Kalman filter on linear models",
  "On a linear Gaussian model, with an ESS threshold of at most 1, as the number of particles grows the mean and the covariance of the ensemble reported at each observation time converge in probability to the mean and the covariance of the state given the observations so far.",
  "all linear Gaussian models, observation sequences, times and keys; in the limit of many particles, for an ideal generator",
  "The statement is a limit in probability over particle numbers; a test sees one run with one number of particles.",
  [S+"ssm/nonlinear_gaussian.py: EnsembleKalmanFilter", S+"ssm/filtering.py: run_particle_filter_for_marginals"])

p("Tempered ensemble Kalman inversion converges to the posterior moments as the ensemble grows",
  "Run TemperedEKI with no initial state on a scenario with Gaussian prior N(m, P) whose simulator returns H x plus Gaussian noise of covariance R, with an increasing temperature schedule from 0. As the number of members grows, the mean and covariance of the ensemble reported at each temperature converge in probability to those of the prior density times the likelihood raised to that temperature; with the default schedule the last ensemble converges to the posterior mean and covariance.",
  "every dimension, H, P, R, data, random key, schedule starting at 0 with steps at most 1, and every stage of the run",
  "convergence in the ensemble size of a chain of dependent random ensembles; a finite ensemble is never exact",
  [S+"transport/teki.py: TemperedEKI.update", S+"transport/teki.py: TemperedEKI.startup", S+"transport/teki.py: TemperedEKI.next_temperature", S+"transport/teki.py: TemperedEKI.termination_criterion", S+"transport/sampler.py: TransportSampler.startup"])

p("The optimal particle filter, which draws the normals of all particles with one key, estimates without bias and converges",
  "`run_particle_filter_for_marginals` with `OptimalNonLinearGaussianParticleFilter` draws the normals of all particles in one block with the key of the first particle. Whatever the run reports has the same distribution as if every particle had been drawn with its own key. The likelihood estimates and the estimated expectations formed from its weights are unbiased for any number of particles, with the distribution of its first draws as the law of the first state. As the number of particles grows, the reported weighted mean of a bounded function at the last time tends to the filtering expectation and the likelihood estimate to the likelihood, at rate C/n in probability. Where the first draws are exact (diagonal covariances, for instance) these are the filtering expectations of the model.",
  "all nonlinear Gaussian models with measurable transition function and positive definite covariances, of any dimensions; all observations, times, numbers of particles, resampling thresholds and keys; all bounded measurable functions",
  "a correlation between particles or a bias of the weights shows only in the distribution over all random draws, for every model and number of particles",
  [S+"ssm/nonlinear_gaussian.py: OptimalNonLinearGaussianParticleFilter.initial_sample_and_weight_vectorised, propose_and_intermediate_weight_vectorised", S+"ssm/filtering.py: run_particle_filter_for_marginals, initiate_particles"])

p("Every target acceptance rate is attained by some stepsize, and adaptation heads towards it",
  "Let the posterior have any potential, possibly discontinuous or infinite outside a support, with finite positive mass, and let the dimension be at least one. The acceptance rate of RandomWalk with Metropolis (the mean of the alpha recorded by an update, over the posterior and over the draws of the update) is a continuous function of the stepsize, tends to one as the stepsize tends to zero, tends to zero as the stepsize grows, and so takes every value strictly between zero and one. Under RMMetropolis the expected change of the log stepsize in one update is a positive multiple of the acceptance rate minus the target: it is positive at every small enough stepsize, negative at every large enough one and zero at some stepsize in between. For Underdamped with Metropolis, any number of leapfrog steps, any friction and any continuous potential and gradient, the acceptance rate is continuous in the stepsize and tends to one as it tends to zero, so that every rate between that of some stepsize and one is attained.",
  "every posterior of finite positive mass, dimension, key, counter, schedule of adaptation, target rate and stepsize, number of leapfrog steps and friction",
  "the statement is about expectations over the posterior at all stepsizes; a test sees a finite run at a few stepsizes",
  [S+"mcmc/standard_mcmc.py: RandomWalk.proposal, Underdamped", S+"mcmc/metropolis.py: Metropolis.correct, RMMetropolis.adapt, log_robbins_monro_update"])

p("One-dimensional scenarios accept a float, an array with one entry, or many points",
  "Let dim be 1 and let the user's prior_potential, likelihood_potential or potential evaluate the rows of a column of points one by one. Then scenario.potential at a point is the number prior + temperature * likelihood at that point, whether the point is given as a float, as an array of one entry or as a one by one array, and at n points given as an array of any shape it is the array of shape (n,) of the n potentials, in row-major order; a missing prior counts as zero, potential may stand for likelihood_potential. This should remain so when a potential is assigned later.",
  "every row-wise pair of prior and likelihood, temperature, array of points of any shape and number of entries, key",
  "shapes and numbers of points are unbounded and the squeezing of singleton axes treats one point differently from many",
  [S+"core.py: clean_1d, Scenario.__init__, Scenario.__setattr__", S+"scenarios/toy_examples.py: DoubleWell.likelihood_potential"])

p("Without correction, Langevin runs on normal posteriors find the mean and overstate the variance",
  "Run Underdamped with its default infinite friction and single leapfrog step, and with correction=Uncorrected. For every posterior, each row given the row before it is normal with mean the row before minus half the squared stepsize h times the gradient of the potential, and independent coordinates of standard deviation h. If the posterior has independent normal coordinates with means m and standard deviations s, row j started at x has independent normal coordinates with means m + a^j (x - m), where a = 1 - h^2/(2 s^2), and variances h^2 (1 + a^2 + ... + a^(2(j-1))). If h is below twice every s, averages over the run converge in probability, from every start, to the means under the normal law with the same means and variances s^2/(1 - h^2/(4 s^2)), which the updates keep: the estimated mean is right, the estimated variance is too large, and the excess vanishes with h. If h is at least 2 s the variance of the coordinate is at least j h^2 and grows without bound.",
  "every posterior (transition), every normal posterior with independent coordinates, dimension, stepsize, start, key, number of rows and integrable function (law and averages)",
  "the law of a row and the limit of averages are statements about all random draws and unbounded runs",
  [S+"mcmc/standard_mcmc.py: Underdamped", S+"mcmc/sampler.py: MCMCSampler.update, Uncorrected.correct", S+"utils.py: leapfrog"])

p("SVGD leaves exact draws in place on average and otherwise descends at the rate of the kernelised Stein discrepancy",
  "Take SVGD with full batches, plain gradient steps (`optimizers.sgd`) and a Gaussian kernel whose bandwidths are not adapted. (a) If the initial ensemble is independent draws from a smooth posterior, then the first update moves every coordinate of every particle by zero on average, whatever the number of particles, and the mean squared move is at most the squared stepsize times a constant over the number of particles. (b) For any ensemble, the first update moves the particles along one vector field; mapping points along that field changes (mean potential minus mean log Jacobian determinant over the particles), at first order in the stepsize, by exactly minus the square of what `ksd` returns on these particles with the same kernel and minus the potential gradients. So unless `ksd` is zero, every small enough stepsize reduces that objective.",
  "all dimensions, numbers of particles, bandwidths, stepsizes; (a) all differentiable potentials with square integrable gradient under the posterior; (b) all ensembles and potentials differentiable at the particles",
  "(a) is a mean over all ensembles; (b) is a derivative identity between two separately written functions, at every ensemble.",
  [S+"transport/svgd.py: kernelised_grad_matrix, SVGD.startup, SVGD.update", S+"kernels.py: Gaussian", S+"metrics.py: ksd"])

p("Backward simulation converges to the smoothing distribution as particles and trajectories grow",
  "For every bounded function of the hidden path, the average over the m trajectories returned by `forward_filtering_backward_simulation` with n particles has mean squared distance at most B²/m + C/n from the exact smoothing expectation (the expectation given all observations), where B bounds the function and C depends on the function, the model and the observations but not on m, n, the resampling threshold, or the rejection settings; each single trajectory has expectation within sqrt(C/n) of it. With weights bounded by w and T observations, C = 4 T (w^T B / z)², z the likelihood of the observations.",
  "all numbers of particles and trajectories, observation sequences, times, thresholds, rejection settings (with a valid bound), keys and bounded measurable functions of the whole path; any filter with properly weighted proposals and bounded weights, the bootstrap filter, every nonlinear Gaussian model",
  "The error is an expectation over all draws and the claim ranges over all ensemble sizes; the trajectories of one run share the particles, so they are dependent and no fixed-seed run shows the rate.",
  [S+"ssm/backward.py: forward_filtering_backward_simulation, backward_simulation, backward_simulation_full, backward_simulation_rejection", S+"ssm/filtering.py: run_particle_filter_for_marginals, BootstrapFilter"])

p("Online filtering uses the model's current parameters",
  "In a program that keeps one state-space model object and one particle filter object, assigns attributes of the model at any time, and calls `initiate_particles` and `propagate_particle_filter` in any order, every call returns what a fresh filter would return for the model as it is now. (False as stated: the methods are compiled per object and shape, so after the first call with n particles later steps keep the attributes of that call, even after a new `initiate_particles`. True with one n as long as, after an `initiate_particles`, nothing is assigned and there was no earlier call with that n.)",
  "all filter classes described by what startup stores and which methods are compiled (bootstrap, optimal, ensemble Kalman), all histories of assignments, starts and steps of any length, all numbers of particles, particles, observations, times, keys, thresholds",
  "The outcome depends on the whole history of the process: which shapes were used before and what was assigned since. A unit test exercises one history from a fresh object, where compiled code always agrees with the attributes.",
  [S+"ssm/filtering.py: initiate_particles, propagate_particle_filter, ParticleFilter, BootstrapFilter", S+"ssm/nonlinear_gaussian.py: OptimalNonLinearGaussianParticleFilter, EnsembleKalmanFilter"])

p("A Gaussian mixture is evaluated with its current means, weights and covariances",
  "In any program that assigns `means`, `weights` and `covariances` of a `GaussianMixture` (one matrix per component, one for all, or None) and evaluates `dens`, `likelihood_potential` or its gradient in any order, each evaluation is that of the mixture with the attributes last assigned. (False as stated: the methods are compiled per shape of the argument, so later evaluations keep the attributes at the first evaluation with that shape, even after `covariances` is assigned again, which re-compiles only wrappers. True for the first evaluation with each shape and as long as nothing is assigned afterwards.)",
  "all histories of assignments and evaluations, all numbers of components and dimensions, all argument shapes and points",
  "The outcome depends on the whole history: which shapes were evaluated before and what was assigned since. A test that builds an object and evaluates it never sees it.",
  [S+"scenarios/toy_examples.py: GaussianMixture.__setattr__, dens, component_potential, likelihood_potential"])

p("Importance ABC finds the ABC posterior as the number of simulations grows",
  "Let n grow in runs of `ImportanceABC` or `VanillaABC` with one key. With probability one: the average weight tends to the (unnormalised) mass of the ABC posterior - for `VanillaABC`, the fraction accepted tends to the prior predictive probability of data within the threshold - and the weighted mean of every integrable function of parameter and data tends to its mean under the ABC posterior. With `acceptance_rate=q` the threshold recorded after the run tends to the q-quantile of the distance of prior predictive data, the fraction with weight tends to q, and weighted means of bounded functions tend to those of the ABC posterior with that limiting threshold.",
  "all scenarios with measurable simulators and distances, all thresholds with positive mass, all integrable (bounded, for acceptance rates) functions, all keys; proposals that cover the prior; for acceptance rates, all rates at which the distance has a unique quantile without an atom",
  "It is a statement about the limit of infinitely many simulations and about almost all outcomes; with an acceptance rate all weights depend on all distances of the run.",
  [S+"abc/importance.py: ImportanceABC, VanillaABC, clean_chain_ar", S+"sample.py: run"])

p("Filtering one observation at a time converges to the filtering and smoothing distributions",
  "A program starts with initiate_particles and passes its observations one at a time to propagate_particle_filter, with keys none of which is derived from another. With resampling of the whole history, the product of the likelihood estimate formed during the run and the weighted mean of any nonnegative function of the stored trajectories is unbiased, and for bounded weights the mean squared error of the weighted mean against the expectation under the smoothing distribution is at most C/n; the constant does not depend on the number of particles, the threshold or the keys. For functions of the latest state this holds with and without resampling of the history. (The likelihood estimate must be formed from the latest weights after each call: a call that resamples overwrites the previous weights in the record with zeros, and the estimate formed from the final record is wrong: shown.)",
  "every filter with proper weights (the bootstrap filter of any model with bounded likelihoods), every number of particles, threshold, sequence of observations and times, and every sequence of unrelated keys",
  "Unbiasedness and rates of convergence are about the distribution of the results; a test sees single runs.",
  [S+"ssm/filtering.py: propagate_particle_filter", S+"ssm/filtering.py: initiate_particles", S+"ssm/filtering.py: resample_particles", S+"ssm/filtering.py: BootstrapFilter"])

p("Smoothing one observation at a time by backward simulation converges to the smoothing distribution",
  "Start a filter from a first observation, then pass observations one at a time to propagate_particle_smoother with backward_sim=True, with keys that are unrelated and before the lag is reached. Every call succeeds. After the last call there is one state per observation time and the log weights are all zero. The plain average of any bounded function over the n returned trajectories has a mean squared distance of order 1/n from its expectation under the smoothing distribution given all observations so far, and one trajectory has bias of order 1/sqrt(n). This holds although each call resamples the last stored ensemble of the marginal filter in place, and whether or not rejection is used, as long as the rejection bound is at least every transition density.",
  "every state-space model (for the explicit constant: every nonlinear Gaussian model), observations, times, number of calls, number of particles, resampling threshold, lag beyond the number of calls, rejection limit, bounded function of the path",
  "the claim is about the law of the output as the number of particles grows, over all models and all histories of calls",
  [S+"ssm/online_smoothing.py: propagate_particle_smoother_bs, propagate_particle_smoother", S+"ssm/filtering.py: propagate_particle_filter, resample_particles", S+"ssm/backward.py: backward_simulation"])

p("Leapfrog trajectories and runs use the current attributes of the scenario",
  "After assigning attributes of a scenario (for example mean or covariance of a Gaussian), every later call of leapfrog with the scenario's gradient functions, every evaluation and every run uses the attributes as they are at that call, whatever calls were made before. (True of evaluations and RandomWalk; of leapfrog and Underdamped if nothing was assigned since the first leapfrog of as many steps with the present gradient functions, and after scenario.init_grad(). Otherwise the compiled leapfrog keeps the attributes of that first call: shown for direct calls, and for runs in versions of JAX where nested compiled functions share their code. Such a run records the potentials of the old attributes for every value but the first.)",
  "every history of assignments, init_grad calls, leapfrog calls, evaluations and runs with one scenario object of a class with its own attribute assignment; any attributes, states, stepsizes, temperatures, keys, numbers of steps, corrections",
  "which attributes a call uses depends on the whole history of calls with the same number of steps; tests build a new scenario each time",
  [S+"utils.py: _leapfrog, leapfrog", S+"core.py: Scenario.init_grad, Scenario.__setattr__", S+"scenarios/toy_examples.py: Gaussian.__setattr__", S+"mcmc/standard_mcmc.py: Underdamped, RandomWalk"])

p("Choices made by fixed-lag stitching",
  "When a fixed-lag smoother stitches, each trajectory keeps its early part and is continued by one of the recent trajectories, chosen independently of everything drawn before and of the other choices, with probability proportional to the recent trajectory's weight times the transition density from the trajectory's own state over that from the recent trajectory's state. As the number of particles grows, what follows the early part then has the smoothing law of the path from the state where the early part ends. (fixed_lag_stitching with a key of its own does so, with and without rejections, and the limit holds with an error of order 1/n where ratios of transition densities are bounded. propagate_particle_smoother reuses its key: without backward simulation the choice for trajectory i reads the key that particle i was proposed with, and the new states have the wrong law; with backward simulation every choice but that of trajectory 1 is fresh, and that one reads the key of the filter's resampling.)",
  "any early and recent trajectories, weights, states, transition densities, lag, numbers of particles and observations, filter with properly weighted proposals, bounded function of the path; any draws of an ideal generator",
  "a law over all draws, and a limit in the number of particles; a run with one seed shows neither the probabilities nor the dependence between choices and particles",
  [S+"ssm/online_smoothing.py: fixed_lag_stitching, full_stitch, rejection_stitching, propagate_particle_smoother_pf, propagate_particle_smoother_bs", S+"ssm/backward.py: backward_simulation"])

p("Smoothing one observation at a time with the filter's own trajectories converges",
  "Without backward simulation, and before the lag is reached, propagate_particle_smoother called once per observation (each time with a key unrelated to the others) always succeeds, and the weighted mean of any bounded function of the whole path over the n trajectories it returns approaches the smoothing expectation given all observations so far: the mean squared distance is at most a constant over n, and the constant depends on the number of observations, the bound on the weights and the likelihood of the data, not on n. Leaving the weights out without resampling when they are nearly equal does not change this.",
  "any filter with properly weighted proposals and bounded weights, number of particles and observations, times, lag beyond the number of observations, unrelated keys, bounded measurable function of the path; all draws of an ideal generator",
  "a limit in the number of particles of a law over all draws, with weights that are sometimes dropped; a run with one seed and one n shows no rate and no bias",
  [S+"ssm/online_smoothing.py: propagate_particle_smoother, propagate_particle_smoother_pf", S+"ssm/filtering.py: initiate_particles, BootstrapFilter"])

p("A scenario keeps the temperature it was given when tempered runs are made with it",
  "A program may use one scenario for MCMC runs, tempered SMC runs and assignments of scenario.temperature, in any order, and a tempered run may be stopped by an exception or an interrupt at any moment. Every MCMC run should return what it returns at the temperature last assigned (1 if none was), and scenario.potential should be the prior plus that temperature times the likelihood.",
  "any program of assignments, MCMC runs and tempered runs on one scenario, any settings of the tempered runs, any moment at which they are stopped",
  "the scenario carries state from run to run; the test suite makes one complete run to temperature 1 per scenario, after which nothing is noticed",
  [S+"transport/smc.py: TemperedSMCSampler.startup, TemperedSMCSampler.update, TemperedSMCSampler.clean_chain, MetropolisedSMCSampler.startup", S+"core.py: Scenario", S+"sample.py: run"])

p("Repeated filtering and smoothing use the model's current parameters",
  "A program may alternate assignments to the attributes of a state-space model or of a particle filter with runs of the particle filter, backward simulations and forward filtering-backward smoothing, as estimation loops do. Every call should return what it returns on freshly created objects with the attributes that are current at the call.",
  "any sequence of assignments and calls, any class of filter, model, sizes, observations, thresholds, rejection settings and keys",
  "compiled code survives from call to call; the test suite makes each call once per model and never assigns an attribute afterwards",
  [S+"ssm/backward.py: backward_simulation, forward_filtering_backward_simulation", S+"ssm/filtering.py: run_particle_filter_for_marginals, initiate_particles, propagate_particle_filter, BootstrapFilter, ParticleFilter"])

p("Adaptation steers the average acceptance rate to its target",
  "With RMMetropolis, as long as the tuned parameter stays between lo and hi and adaptation is on, the mean of the acceptance probabilities recorded by the first N updates is within log(hi/lo) * (i+N)^rm_stepsize_neg_exponent / (rm_stepsize_scale * N) of the target (hi-lo for log_update=False), for any sampler, scenario and random draws. For a RandomWalk on an ideal generator, if large stepsizes are accepted less often than the target by a margin from every position, stepsizes stay bounded in probability uniformly in the number of updates, and likewise away from zero if small ones are accepted more often; if both, the mean recorded acceptance probability tends to the target in mean at rate (i+N)^rm_stepsize_neg_exponent / N. Both hold for every continuous potential on a box when the target is below 1/2^dim (the default 0.234 for dim 1 and 2). On a flat potential they fail and the mean stays 1.",
  "every sampler, correction, scenario, target, schedule, start and number of updates; every support and potential with the stated rates, every key of an ideal generator",
  "A statement about the long run of a noisy recursion whose noise depends on the chain, over all scenarios; a test sees one run of one scenario.",
  [S+"mcmc/metropolis.py: RMMetropolis.correct", S+"mcmc/metropolis.py: RMMetropolis.adapt", S+"mcmc/metropolis.py: RMMetropolis.log_robbins_monro_update", S+"mcmc/standard_mcmc.py: RandomWalk"])

p("Averages over adaptive runs converge to posterior means",
  "A RandomWalk run with RMMetropolis, whose stepsize changes with the chain's own past, still estimates the posterior. With an adapt_cut_off: for every posterior of finite positive mass, every integrable quantity, every start (even outside the support) and every initial stepsize, the mean over the rows of the run tends in probability to the posterior mean. Without a cut-off: the same for every bounded quantity and every start in the support, if the support and the potential on it are bounded, the gains vanish (rm_stepsize_neg_exponent > 0), and small stepsizes are accepted more often and large ones less often than the target by a margin; this holds for every continuous potential on a box when the target is below 1/2^dim.",
  "every posterior of the stated kind, quantity, start, initial stepsize, schedule, key of an ideal generator; n to infinity",
  "An adaptive chain is not Markov in the position and has no invariant law; its convergence is a limit statement over all runs, which no finite run can show.",
  [S+"mcmc/metropolis.py: RMMetropolis.correct", S+"mcmc/metropolis.py: RMMetropolis.adapt", S+"mcmc/standard_mcmc.py: RandomWalk", S+"mcmc/sampler.py: MCMCSampler", S+"sample.py: run"])

p("State-space models are built with matching dimensions, defaults and noise",
  "TimeHomogenousLinearGaussian, NonLinearGaussian, Lorenz63 and Lorenz96, constructed with arguments of matching shapes of which any may be left out, hold the dimension of states and observations that the arguments determine, the arguments given, zero or identity in place of the others, and the factors of the covariances; samples of initial states, transitions and observations then have these sizes and follow the normal distributions of the arguments. Arguments that do not match are refused, and covariances may be given as matrices, vectors of variances or numbers.",
  "every dimension of states and observations, every subset of the arguments, every value of them",
  "Combinations of missing arguments, shapes and values are unbounded, and the law of a sample is not visible in any sample.",
  [S+"ssm/linear_gaussian/linear_gaussian.py: TimeHomogenousLinearGaussian", S+"ssm/linear_gaussian/linear_gaussian.py: LinearGaussian", S+"ssm/nonlinear_gaussian.py: NonLinearGaussian", S+"ssm/scenarios/lorenz96.py: Lorenz96", S+"utils.py: extract_dimension", S+"utils.py: reset_covariance"])


p("Tempered SMC with adaptive temperatures converges as the ensemble grows",
  "MetropolisedSMCSampler with adaptive temperatures and a random walk inside, started from draws of the prior: with probability tending to 1 as the number of particles grows the run leaves temperature 0 at its start, and the weighted mean of every bounded function over the ensemble after any number of updates, hence over every row of the returned chain, is close to its expectation under the posterior tempered at the temperature that the run has chosen for that row; in particular rows at the maximal temperature approximate posterior expectations, and the exponential of log_norm_constant approximates the normalising constant.",
  "every prior density, likelihood potential bounded below and not constant, maximal temperature, retained fraction below 1, tolerance at most minus its logarithm, resampling threshold, number and stepsize of inner moves, number of updates and bounded measurable function; sufficiently many iterations of the search for a temperature (explicit when the potential has a mean under the prior)",
  "The temperatures depend on the particles, so no fixed schedule covers a run, and convergence in probability is a statement about all ensemble sizes.",
  [S+"transport/smc.py: MetropolisedSMCSampler", S+"transport/smc.py: TemperedSMCSampler.adapt", S+"transport/smc.py: SMCSampler.update", S+"utils.py: bisect", S+"metrics.py: log_ess_log_weight"])


p("Adaptive tempered SMC reaches the maximal temperature in a bounded number of updates",
  "MetropolisedSMCSampler with adaptive temperatures and a random walk inside, started from draws of the prior: there is a step that does not depend on the number of particles such that, with probability tending to 1 as it grows, each update raises the temperature by at least this step, or reaches the maximal temperature, or leaves it where reweighting to the maximal temperature would not lower the effective sample size. When every update resamples the last case does not occur: the run ends at the maximal temperature after a bounded number of updates, and weighted means over the last row of the chain converge to posterior expectations.",
  "every prior density, likelihood potential bounded below and not constant, maximal temperature, retained fraction below 1, tolerance at most minus its logarithm, number and stepsize of inner moves, bounded measurable function; sufficiently many iterations of the search and updates allowed",
  "Progress in the limit of large ensembles, with a bound that does not depend on their size, is not visible in any finite number of runs.",
  [S+"transport/smc.py: MetropolisedSMCSampler", S+"transport/smc.py: MetropolisedSMCSampler.next_temperature_adaptive", S+"transport/smc.py: TemperedSMCSampler.termination_criterion", S+"utils.py: bisect"])


p("Tempered SMC with adapted stepsizes converges as the ensemble grows",
  "RMMetropolisedSMCSampler with a random walk inside, started from draws of the prior. The stepsize of each update is adapted from the acceptance rates of the ensemble, and without a schedule the temperature is chosen from the ensemble too. After every number of updates, the weighted mean of every bounded function converges in probability, as the number of particles grows, to its expectation under the tempered posterior at the current temperature, and the exponential of log_norm_constant to the normalising constant; so does every row of the returned chain, and a row at the maximal temperature gives posterior expectations. With a schedule the limits are those at the scheduled temperatures.",
  "every prior density, likelihood potential bounded below (not constant, if temperatures are adaptive), initial stepsize, target acceptance rate, adaptation step, number of inner moves, thresholds, schedule of positive non-decreasing temperatures or maximal temperature, number of updates, bounded measurable function",
  "The stepsize used for the particles depends on the particles; whether this introduces a bias that stays as the ensemble grows cannot be seen in finitely many runs.",
  [S+"transport/smc.py: RMMetropolisedSMCSampler", S+"transport/smc.py: RMMetropolisedSMCSampler.adapt", S+"transport/smc.py: MetropolisedSMCSampler", S+"mcmc/standard_mcmc.py: RandomWalk"])


p("ABC-SMC with adaptive thresholds converges as the ensemble grows",
  "MetropolisedABCSMCSampler without a threshold schedule and a random-walk ABC sampler inside. Each threshold is a quantile of the distances of the current ensemble. After every number k of updates the probability that simulated data fall within the recorded threshold converges, as the number of particles grows, to ess_threshold_retain to the power k + 1. The mean of every bounded function of parameter and data over the particles with weight converges in probability to its expectation given data within that threshold; so does every row of the returned chain.",
  "every prior, simulator and distance without atoms, ess_threshold_retain strictly between 0 and 1, resampling threshold, positive number of inner steps, stepsize, number of updates, bounded measurable function",
  "Thresholds computed from the particles they are applied to could bias the ensemble; whether the bias vanishes as the ensemble grows cannot be seen in finitely many runs.",
  [S+"abc/smc.py: MetropolisedABCSMCSampler", S+"abc/smc.py: MetropolisedABCSMCSampler.next_threshold_adaptive", S+"abc/mcmc.py: RandomWalkABC"])

p("Diagnostics computed from a run converge to those of the chain",
  "As a RandomWalk run with Metropolis grows, from any start, squared_jumping_distance of any square-integrable quantity tends in probability to the mean squared change of one update of the stationary chain; autocorrelation at each lag tends to the autocorrelation of the stationary chain, integrated_autocorrelation_time at an explicit max_lag_iat to 1 + 2 times the sum of the first max_lag_iat + 1 of them, and ess_autocorrelation over the number of samples to the inverse of that, whenever max_lag_eval is not below the number of samples. With a fixed max_lag_eval (such as the default 1000) this must still hold for the first lags.",
  "every dimension, measurable potential that may be infinite, posterior of finite positive mass, stepsize, start, key, quantity of finite variance, lag and number of lags",
  "A test computes the diagnostics of one run of one length and has no exact value to compare with; convergence is a statement about the law of runs of growing length, for every target.",
  [S+"metrics.py: autocorrelation, integrated_autocorrelation_time, ess_autocorrelation, squared_jumping_distance, _next_pow_two", S+"mcmc/sampler.py", S+"mcmc/standard_mcmc.py: RandomWalk", S+"mcmc/metropolis.py: Metropolis"])

p("Bandwidth rules follow the spread of the ensemble",
  "For two particles or more, median_bandwidth_update and mean_bandwidth_update return a positive bandwidth whenever the particles are not all equal, so that SVGD and ksd can use it. With the median rule the Gaussian kernel is at least 1/n at half of the ordered pairs of particles or more and at most 1/n at half of them or more; with the mean rule the root of -2 log k averages to its value at k = 1/n. Both scale with the ensemble under shifts, reflections and stretching, and neither depends on the order of the particles.",
  "every number of particles from two on, every dimension and every ensemble, including ensembles with repeated particles",
  "A test evaluates the rules at a few random ensembles, in which no particles coincide; resampled ensembles contain copies.",
  [S+"kernels.py: median_bandwidth_update, mean_bandwidth_update, Gaussian", S+"utils.py: l2_distance_matrix"])

p("Plots show the values they are asked to show",
  "trace_plot draws the whole series of potentials (or the array given), or its last last_n values, or all of them if there are fewer; autocorrelation_plot draws at each lag the autocorrelation at that lag; plot_2d_samples draws for every row, in order and once, the two coordinates asked for, and hist_1d_samples counts the coordinate asked for of every row, the ensembles of a three-dimensional array being taken one after another. Without an axis a new figure with nothing else on it is returned, with an axis the calls are added to those made before. Samples of a shape that cannot be plotted are refused.",
  "every array of one, two or three axes, every sample with or without values and potentials, every number of values asked for, every coordinate, every axis already drawn on",
  "A figure is looked at, not compared; a shifted or truncated plot raises nothing and looks plausible.",
  [S+"metrics.py: extract_1d_vals, metric_plot, autocorrelation_plot, trace_plot, plot_2d_samples, hist_1d_samples"])

p("On bounded supports a run forgets its start at a known rate, and its averages have a known error",
  "For a RandomWalk run with Metropolis on a posterior whose support has diameter at most R and whose potential is at least m there, let share be the posterior mass divided by exp(-m), times the smallest proposal density between two points of the support. From every start in the support, after j updates the probability of every event differs from its posterior probability by at most (1 - share)^j. The mean over n rows of a quantity between lo and hi has mean squared error at most (hi - lo)^2 (2/share - 1)/n, and is off by eps or more with probability at most that over eps^2. On an unbounded support no number of updates is enough for all starts.",
  "every dimension, bounded measurable support of positive posterior mass, measurable potential bounded below on it, stepsize, start in the support, key, run length, row, event and measurable quantity bounded on the support; every unbounded support of finite mass",
  "A burn-in is chosen by looking at a few runs; that it is enough for every start and every event is a statement about the law of the run.",
  [S+"mcmc/sampler.py", S+"mcmc/standard_mcmc.py: RandomWalk", S+"mcmc/metropolis.py: Metropolis", S+"sample.py: run"])

p("With a bounded prior an ABC-MCMC run forgets its start at a known rate, and its averages have a known error",
  "For a RandomWalkABC run with Metropolis whose prior support has width at most R_i in coordinate i and whose prior potential is at least m there, let share be the mass of the ABC posterior divided by exp(-m), times the product over coordinates of the smallest proposal density over that width, with the stepsize of the coordinate. From every start in the prior support, with any initial data, after j updates the probability of every event for parameter and data differs from its probability under the ABC posterior by at most (1 - share)^j. The mean over n rows of a quantity between lo and hi has mean squared error at most (hi - lo)^2 (2/share - 1)/n, and is off by eps or more with probability at most that over eps^2.",
  "every dimension, bounded measurable prior support, measurable prior potential bounded below on it, measurable simulator, distance and threshold with positive acceptance mass, vector of stepsizes, start, initial data, key, run length, row, event and measurable quantity bounded on the prior support",
  "How slowly a run mixes as the threshold shrinks is a statement about the law of the run from every start; a test sees a few runs for a few thresholds.",
  [S+"abc/mcmc.py: RandomWalkABC", S+"abc/abc.py: ABCScenario", S+"mcmc/metropolis.py: Metropolis", S+"sample.py: run"])

p("Error bars of importance ABC cover the ABC posterior mean with the nominal probability as the run grows",
  "For VanillaABC and ImportanceABC runs with a given threshold, let the estimate be the weighted mean of a quantity over the returned rows and let its standard error be the root of the sum of squared weighted deviations divided by the sum of the weights. If the weights and the weighted quantity have finite variance and the quantity is not constant under the ABC posterior, then as the run grows the probability that the estimate minus the ABC posterior mean is at most t standard errors tends to the probability that a standard normal variable is at most t, and the interval of z standard errors around the estimate contains the ABC posterior mean with probability tending to that of a standard normal variable in [-z, z].",
  "every dimension, prior, proposal whose support contains the prior's, measurable simulator, distance and threshold with positive acceptance mass, key, t, z >= 0 and measurable quantity with finite weighted variance that is not constant under the ABC posterior",
  "Coverage is the limit of a probability over runs of growing length; a test can only count how often a few runs cover, with an error larger than the differences that matter.",
  [S+"abc/importance.py: VanillaABC", S+"abc/importance.py: ImportanceABC", S+"abc/abc.py: ABCScenario", S+"sample.py: run"])

p("The simulations VanillaABC accepts are independent draws from the ABC posterior, and their number is binomial",
  "For a VanillaABC run of n rows with a given threshold, the number of rows with positive weight has the binomial distribution with n trials and the probability that one simulation from the prior is accepted. Given that k rows have positive weight, their parameters and data are, in order, k independent draws from the ABC posterior. Both hold for every run length, not only in the limit, and include the row that startup simulates.",
  "every dimension, prior, measurable simulator, distance and threshold, key, run length n >= 1, number k, and every choice of one event per accepted row",
  "The claim is about the joint law of a list of random length; a test sees a few runs of a few lengths and cannot tell independent draws from draws that share a key.",
  [S+"abc/importance.py: VanillaABC", S+"abc/importance.py: ImportanceABC", S+"abc/abc.py: ABCScenario", S+"sample.py: run"])

p("A longer run extends a shorter one, and a run can be continued from its last row with a fresh key",
  "An MCMC run with a larger n and otherwise the same arguments returns the rows of the shorter run followed by more, for every sampler and correction, RMMetropolis included, and so does VanillaABC or ImportanceABC with a threshold. A program that makes several RandomWalk runs with Metropolis, or several Underdamped runs with infinite friction, starting each at the last value of the one before with a key of its own and dropping the repeated row, gets rows with the joint law of the one long run it could have made instead.",
  "every sampler, correction, start and pair of run lengths for the first part; for the second every dimension, measurable potential, stepsize, number of leapfrog steps, start, list of run lengths with keys that share no descendants, and every choice of one event per row",
  "Equality of two joint laws over rows of any number; a test compares a few runs and cannot see that a key was used in both parts.",
  [S+"sample.py: run", S+"mcmc/sampler.py: MCMCSampler", S+"mcmc/standard_mcmc.py: RandomWalk", S+"mcmc/standard_mcmc.py: Underdamped", S+"abc/importance.py: ImportanceABC"])

p("Keyword arguments of a scenario's constructor are used",
  "The functions, the temperature, the dimension and the further attributes given to a scenario's constructor by keyword are those of the scenario built: its potential is the prior given plus the temperature given times the likelihood (or potential) given. (Holds for arguments naming an attribute the object already has. Others are dropped without an error: temperature=t is ignored and the target is that of temperature 1, and Scenario(potential=f, dim=d) raises because dim was dropped: proved separately.)",
  "all classes (which members and attributes they define), all lists of keyword arguments, all functions, values and points",
  "The outcome depends on which names the class happens to define; a test checks a few calls, and a dropped argument gives a plausible scenario with another target.",
  [S+"core.py: Scenario", S+"scenarios/twodim/vectorise.py: TwoDimToyScenario"])

p("Gaussian scenarios are built with the mean and covariance asked for",
  "Gaussian(dim, mean, covariance), with any of them left out, has the dimension of the arrays given (or dim), and its potential is half the quadratic form of the normal distribution with that mean (0 if missing) and covariance (identity if missing), whether the covariance is a vector of variances, a matrix or a single number in an array. (Holds when dim is left at 1 or is the dimension of the arrays. Fails otherwise: Gaussian(n, mean=array([m])) is one-dimensional with precision n, other mismatches give a scenario whose potential always raises, and a float mean, which the signature allows, raises: proved separately.)",
  "all dimensions, all means, all positive definite covariances, given or not, all points",
  "Missing arguments are filled in with arrays of another length and broadcasting decides what they mean; a test checks a few shapes, and a wrong precision is not an error.",
  [S+"scenarios/toy_examples.py: Gaussian", S+"utils.py: reset_covariance"])

p("Plots of two-dimensional scenarios show the target in the frame asked for",
  "The values scenario.plot draws are the densities exp(-potential) (or the potentials, if asked) at their own points, row by y and column by x; the points lie in the frame and none of its points is further than half a step from one of them; the frame is that given by xlim and ylim, a missing one being the limits the scenario has afterwards; with both given plot always draws and leaves the scenario's limits alone. (Fails when axes are passed, whose limits replace those given, and raises for a scenario with xlim assigned but not ylim: proved separately.)",
  "all potentials (with values that may be infinite or nan), all frames, resolutions, stored limits, axes and settings",
  "A transposed grid or a shifted point shows in no symmetric example; a test compares a few pictures.",
  [S+"scenarios/twodim/vectorise.py: TwoDimToyScenario"])

p("Chains run with separate keys are independent copies, and error bars computed across chains are honest",
  "Run RandomWalk, Underdamped with any friction (infinite friction: Hamiltonian Monte Carlo, overdamped Langevin) or RandomWalkABC with Metropolis, or RandomWalk with RMMetropolis, which tunes the stepsize during the run, several times on the same scenario, each time with its own key, no two of the keys sharing splits (for example the keys of one random.split). Then the rows of the runs are independent of each other, whatever their lengths and initial values, and runs with the same initial value have the same distribution whatever their keys. So if some number (say the average of a function over the rows after burn-in) is computed from each of R runs, the mean of the R numbers has the expectation of that number for a single run, it converges to this expectation with probability one as R grows, and the interval of z standard errors around it, the standard error being the standard deviation of the R numbers over the root of R, contains that expectation with the probability that a standard normal variable lies in [-z, z], in the limit. With one key used R times the runs are identical: the spread is zero and says nothing.",
  "all targets, dimensions, stepsizes, leapfrog steps, initial values, run lengths, families of keys without common splits, measurable sets of values per row, and numbers computed from a run with finite positive variance",
  "A statement about joint distributions of unboundedly many runs and a limit in their number; a test compares a few seeds.",
  [S+"sample.py: run", S+"mcmc/standard_mcmc.py: RandomWalk", S+"mcmc/standard_mcmc.py: Underdamped", S+"mcmc/metropolis.py: Metropolis, RMMetropolis", S+"abc/mcmc.py: RandomWalkABC"])

p("Particle-filter runs with separate keys can be pooled, whatever their size",
  "Run a particle filter (the bootstrap filter on any state-space model whose likelihood potential is bounded below at the observations made, or the bootstrap or the optimal filter on a nonlinear Gaussian model) R times on the same observations with the same number of particles, each time with its own key, no two of the keys sharing splits. Then the plain average of the R likelihood estimates converges to the likelihood of the observations, and the average of the R weighted means of a bounded function at the last time, each run weighted by its likelihood estimate, converges to the filtering expectation of that function. For any tolerance the probability of a larger error is at most C / R, with one constant C for all numbers of particles (even one), resampling thresholds and families of keys, so the bias of a single small filter is removed by pooling more of them. The weights are needed: with one particle and one observation, the unweighted average of the means of the runs has the prior expectation of the function, whatever was observed. With one key used R times the average is the estimate of a single run.",
  "all state-space models, times, observations, bounded measurable functions, tolerances, numbers of particles, thresholds, families of keys without common splits and numbers of runs",
  "A statement about the joint distribution of unboundedly many runs with a rate uniform in the number of particles; a test pools a few runs of one size.",
  [S+"ssm/filtering.py: run_particle_filter_for_marginals", S+"ssm/filtering.py: BootstrapFilter", S+"ssm/nonlinear_gaussian.py: OptimalNonLinearGaussianParticleFilter", S+"metrics.py: ess_log_weight"])

p("Tempered SMC runs with separate keys can be pooled, whatever their size",
  "Run a Metropolised tempered SMC sampler with a fixed increasing temperature schedule R times, each time from its own independent draws of the prior and with its own key, no two of the keys sharing splits. If the likelihood is bounded, then after every number of updates the plain average over the runs of exp(log_norm_constant) converges to the normalising constant of the tempered posterior, and the average of the weighted means of a bounded function, each run weighted by its exp(log_norm_constant), converges to the expectation under the tempered posterior. For any tolerance the probability of a larger error is at most C / R, with one constant C for all numbers of particles (even one), inner stepsizes, numbers of inner MCMC steps, resampling thresholds and families of keys. So many small runs replace a large one. The weights are needed: for runs of one particle at the first temperature the unweighted average of the means converges to the prior expectation, whatever the likelihood. (For inner sampler RandomWalk, and Underdamped with its default infinite friction.)",
  "all priors that are probability laws, likelihood potentials bounded below, increasing schedules of positive temperatures, numbers of updates, bounded measurable functions, tolerances, numbers of particles, settings, families of keys without common splits and numbers of runs",
  "A statement about the joint distribution of unboundedly many runs with a rate uniform in the number of particles and settings; a test pools a few runs of one size.",
  [S+"transport/smc.py: MetropolisedSMCSampler, TemperedSMCSampler, SMCSampler", S+"mcmc/standard_mcmc.py: RandomWalk, Underdamped"])

p("ABC-SMC runs with separate keys can be pooled, whatever their size",
  "Run the ABC-SMC sampler (inner sampler RandomWalkABC with Metropolis and fixed stepsize) without initial state and with a fixed non-increasing schedule of thresholds R times, each time with its own key, no two of the keys sharing splits. Each run gives an estimate of the prior probability of data within the threshold: the product of the fractions of particles with weight at the resampling updates and of the last such fraction. If earlier thresholds are hit exactly with probability zero, then after every number of updates the plain average of these estimates is within any tolerance e of that probability except with probability at most 1 / (e^2 R), and the average of the means over the particles with weight of a bounded function, each run weighted by its estimate, converges to the ABC posterior expectation at rate C / R with one constant C for all numbers of particles (even one), stepsizes, settings and families of keys. Runs in which no particle is left count with weight zero and do no harm. Without the weights the average is wrong: for runs of one particle before the first update the plain average of the means tends to the ABC posterior expectation times the probability of data within the threshold.",
  "all priors that are probability laws from which the scenario draws, simulators, distances, non-increasing schedules of thresholds, numbers of updates, bounded measurable functions, tolerances, numbers of particles, settings, families of keys without common splits and numbers of runs",
  "A statement about the joint distribution of unboundedly many runs with a rate uniform in the number of particles and settings; a test pools a few runs of one size.",
  [S+"transport/smc.py: SMCSampler", S+"abc/smc.py: MetropolisedABCSMCSampler", S+"abc/mcmc.py: RandomWalkABC"])

p("Error bars across runs with separate keys are honest",
  "Run a particle filter (bootstrap, or the optimal filter of a nonlinear Gaussian model), the tempered SMC sampler of C163 (from independent draws of the prior) or the ABC-SMC sampler of C164 many times, each time with its own key, no two of the keys sharing splits. Form the average of the runs' means of a bounded function, each run weighted by its estimate of the likelihood (tempered SMC: of the normalising constant; ABC-SMC: of the probability of data within the threshold), and its estimated standard error: the root of the sum over runs of the squares of weight times deviation from the average, divided by the sum of the weights. As the number of runs grows, the average converges with probability one to the filtering (tempered posterior, ABC posterior) expectation, and the interval of z standard errors about it contains that expectation with the probability that a standard normal variable lies between -z and z, in the limit. The same holds for plain averages of the likelihood (evidence) estimates. The number of particles stays fixed and may be one. The only exceptions are runs without randomness: an estimate that is the same number in every run, or a mean that is exact in every run with non-zero weight.",
  "all models and proposals with bounded weights whose draws come from their key (in particular all nonlinear Gaussian models), observations, times, thresholds; all priors, likelihood potentials bounded below and schedules as in C163; all priors, simulators, distances and non-increasing schedules of thresholds as in C164; bounded measurable functions, numbers of particles, settings, families of keys without common splits, z",
  "A statement about a limit in distribution over unboundedly many runs; a test sees a few runs and one interval.",
  [S+"ssm/filtering.py: run_particle_filter_for_marginals, BootstrapFilter", S+"ssm/nonlinear_gaussian.py: OptimalNonLinearGaussianParticleFilter", S+"transport/smc.py: SMCSampler", S+"abc/smc.py: MetropolisedABCSMCSampler", S+"abc/mcmc.py: RandomWalkABC"])

p("Large errors of averages over runs with separate keys are exponentially rare",
  "Run a particle filter (bootstrap, or the optimal filter of a nonlinear Gaussian model), the tempered SMC sampler of C163 or the ABC-SMC sampler of C164 R times, each time with its own key, no two of the keys sharing splits. For every R, not only in the limit, the plain average of the likelihood (evidence, normalising constant) estimates is off by eps or more with probability at most 2 exp(-2 R eps^2 / M^2), where M bounds the estimate of one run: the bound of the weights to the power of the number of observations for filters, a power of exp(T |w|) for tempered SMC with likelihood potentials at least w, and 1 for ABC-SMC. The average of the runs' means of a function with values in [-B, B], each run weighted by its estimate, is off by eps or more with probability at most 2 exp(-R (Z eps)^2 / (2 (M (2 B + eps))^2)), where Z is the likelihood (evidence, normalising constant). The number of particles stays fixed and may be one, and no run needs to be accurate.",
  "all models and proposals with bounded weights whose draws come from their key (in particular all nonlinear Gaussian models), observations, times, thresholds; all priors, likelihoods bounded below and increasing schedules as in C163; all priors, simulators, distances and non-increasing schedules of thresholds as in C164; bounded measurable functions, numbers of particles, settings, families of keys without common splits, numbers of runs R, eps > 0",
  "A bound on a small probability for all R and eps at once; a test cannot see events of probability exp(-R) and covers one model.",
  [S+"ssm/filtering.py: run_particle_filter_for_marginals, BootstrapFilter", S+"ssm/nonlinear_gaussian.py: OptimalNonLinearGaussianParticleFilter", S+"transport/smc.py: SMCSampler, MetropolisedSMCSampler", S+"abc/smc.py: MetropolisedABCSMCSampler", S+"abc/mcmc.py: RandomWalkABC"])

p("Large errors of VanillaABC are exponentially rare",
  "In a VanillaABC run of n rows with a threshold, for every n and not only in the limit, the fraction of rows with positive weight differs by eps or more from the probability c that one simulation from the prior is accepted with probability at most 2 exp(-2 n eps^2). The weighted mean of a function with values in [-B, B] over the rows differs by eps or more from its mean under the ABC posterior with probability at most 2 exp(-n (c eps)^2 / (2 (2 B + eps)^2)); runs that accept nothing are included.",
  "all priors, simulators, distances, thresholds, keys, bounded measurable functions, n >= 1, eps > 0",
  "A bound on a small probability for all n and eps at once; a test covers one scenario and cannot see such rare events.",
  [S+"abc/importance.py: VanillaABC", S+"abc/abc.py: ABCScenario", S+"sample.py: run"])

p("Large errors of averages over MCMC chains are exponentially rare",
  "For R runs of RandomWalk, of Underdamped with any friction, or of RandomWalkABC with Metropolis, or of RandomWalk with RMMetropolis, with the same start and length and keys that share no splits: the average over the runs of any number in [a, b] computed from the rows of a run differs by eps or more from the expectation of that number for one run with probability at most 2 exp(-2 R eps^2 / (b - a)^2), for every R and not only in the limit. With the same key in every run there is no such gain: the average errs as often as one run.",
  "all measurable targets, step sizes, starts, lengths, families of keys without common splits, measurable functions of the rows with values in an interval, R >= 1, eps > 0",
  "A bound on a small probability for all R and eps at once; a test runs a few chains and cannot see such rare events.",
  [S+"mcmc/standard_mcmc.py: RandomWalk, Underdamped", S+"mcmc/metropolis.py: Metropolis, RMMetropolis", S+"abc/mcmc.py: RandomWalkABC", S+"sample.py: run"])


if __name__ == '__main__':
    out = pathlib.Path(__file__).resolve().parent.parent / 'properties.jsonl'
    with open(out, 'w') as f:
        for q in P:
            f.write(json.dumps(q) + '\n')
    print(len(P))
