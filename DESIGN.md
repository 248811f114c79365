# Formal model of SamDuffield/mocat in Lean 4: design

Source modelled: `/repo/mocat/src` (Python/JAX) at the pinned commit, read as text.
Lean project: `/verif/lean`, Lean 4.33.0 + Mathlib (imported module by module).

## 1. Layout

* `Verif/Model/*.lean`  definitions, each with the file and lines of `/repo` it models and the simplifications made.
* `Verif/Spec/*.lean`   small independent specifications (what the English says), when a definition is needed.
* `Verif/Lemmas/*.lean` helper lemmas.
* `Verif/Props/*.lean`  one theorem (or a few) per property of `properties.jsonl`, each followed by an `example` in which
  a concrete non-trivial case meets its hypotheses.
* `MANIFEST.json` maps property ids to theorem names. `seeded/LOG.jsonl` records the wrong programs tried.

## 2. How Python/JAX is represented

| Python/JAX | Lean |
|---|---|
| float arithmetic | exact reals `ℝ` (or any ordered field where no `exp/log/sqrt` occurs); no rounding, no overflow |
| NaN and infinities, where the code branches on them | the type `Fl` (`nan`, `ninf`, `fin x`, `pinf`) with IEEE rules for `+`, `-`, `exp`, `min`, `<` |
| log weights that may be `-inf` | `Fl` or `WithBot ℝ`/weights `≥ 0` (stated per definition) |
| arrays | functions `Fin n → α`, `List α`, or Mathlib matrices; shape errors are error values |
| exceptions | `Except Err α` |
| `jax.lax.scan`, `while_loop`, `vmap`, `cond` | recursion / `List.foldl` / map / `if` |
| `jit` | identity, except where attributes of objects are assigned between calls: there the code kept for each static argument and shape is modelled (C133, C134, C138) |
| `partial`, device placement | identity |
| `jax.random` | keys are an abstract type with `split`; draws are functions of keys, or (for key hygiene) keys are paths in the free splitting tree and every consumption is logged |
| `grad`, `value_and_grad` | a parameter, with the derivative itself as specification (`HasDerivAt`, `HasFDerivAt`) |
| `cholesky`, `inv`, `categorical`, `quantile`, `fft`, `pickle` | parameters with their documented behaviour as hypotheses, or the textbook definition; see the trusted base |
| out-of-range array indexing inside jit | clamped to the last element (documented JAX behaviour) |

## 3. Plan per property

M = what is modelled, P = how it is proved. Properties the code violates get a `_partial` theorem for what does hold and a
theorem that proves the violation on a concrete witness.

| id | plan |
|---|---|
| C01 | M: heap of attribute dictionaries, `copy` = new object with the same bindings, `deepcopy` = recursive. P: induction over operation sequences (frame property). |
| C02 | M: cdict as ordered association list with nested/static children. P: structural induction. |
| C03, C04, C05 | M: `__getitem__`, `__add__` branch by branch on a value type (array / scalar / nested / static / other). P: structural induction. |
| C06, C07, C08 | M: file system as path -> contents; save as a list of atomic effects; a crash is any prefix. P: case analysis on prefixes, frame property; violation witnesses for crash atomicity and name collision. |
| C09, C10 | M: scenario as attribute record + `__setattr__` state machine; closures read attributes at call time. P: invariant over assignment histories. |
| C11, C12 | M: the scan with `(carry, final_iter)` exactly as written. P: refinement to an ordinary bounded while loop, by induction. |
| C13 | M: ordered dictionaries with optional values. P: pointwise characterisation + induction over runs. |
| C14, C15, C21 | M: `Fl`-valued acceptance, Metropolis.correct, MCMCSampler.update. P: case analysis, invariant by induction over runs. |
| C16, C17, C19, C20 | M: the update as a function of (state, noise, uniform). P: Mathlib measure theory (`lintegral`), detailed balance, measure-preserving shears, Gaussian convolution. |
| C18 | M: `_leapfrog` scan over position/momentum/gradient. P: induction on L. |
| C22, C51 | M: free key tree with consumption log. P: disjointness of subtrees, induction; violation witness for the filter. |
| C23, C24, C64 | M: adaptation recurrences (Robbins-Monro stepsizes, quasi-Newton memory). P: invariants by induction. |
| C25..C32 | M: utils.py functions over `ℝ`/matrices. P: algebra (Mathlib), induction on memory length. |
| C33..C37 | M: metrics/kernels. P: Cauchy-Schwarz, finite sums, `HasDerivAt`. |
| C38..C45 | M: SMC/EKI/SVGD step functions. P: invariants over runs; violation witnesses. |
| C46..C59, C73..C75 | M: ssm package. P: induction over time; matrix algebra and products of normal densities for Kalman. |
| C60..C67, C76, C77 | M: abc package and its scenarios. P: order statistics, invariants over event histories, changes of variables. |
| C68, C78, C79 | M: toy scenarios. P: Gaussian integrals, changes of variables, algebra. |
| C69, C70 | M: quasi-Newton sampler. P: invariants over histories; measure theory for a fixed memory. |
| C71, C72 | M: preconditioned kernel, kernelised Stein discrepancy. P: derivatives, finite sums. |
| C80..C82 | M: state-space scenarios. P: laws of affine images of normals; energy argument for Lorenz 96. |
| C83, C84 | M: `Model/Backward`, with an ideal generator (`Spec/Tape`: a product measure over all keys and positions). P: with a dominating bound the loop decouples into particles; each attempt keeps the target law (induction on the attempts left); draws from disjoint keys are independent; induction over time for trajectories. Counterexample for the default bound. |
| C85 | M: `Model/Smc` with inner `rwKernel` / `udKernel`, ideal generator. P: a run reduces to positions, log weights, log constant; a weighted estimate after one update has the expectation of a weighted estimate before it (resampling unbiased, inner chain leaves the tempered law invariant, incremental weights correct the change of temperature); induction over updates. Counterexample for finite friction. The invariance theorems C16, C19 are also restated on the ideal generator (`Props/ChainLaw`). |
| C86 | M: `Model/Filtering` (`run`), `Model/NonlinearGaussian`, ideal generator. S: likelihood estimate formed from the reported log weights and ESS; path expectation under the model. P: one filter step maps a weighted estimate of the function integrated against the weighted transition to one of the function itself (same lemma as C85, `Lemmas/SmcLaw`); induction over observations; instances: bootstrap (any model), optimal filter (via C52). |
| C87 | M: `Model/Abc` (`RandomWalkABC` update) on the ideal generator, simulators as measurable functions of state and the randomness below their key (`Lemmas/Subtape`). S: law of prior and simulated data restricted to the ball of the distance. P: update = tape step; joint law of (walk, data) symmetric under exchange with the current pair (Fubini, symmetry of the normal walk); Metropolis lemma; induction over updates. |
| C88 | M: `Model/Abc` (`importanceRun`, vanilla and importance log weights). S: sum of exp(log weight) times f; same restricted law as C87. P: each row is a function of the sites below its own key, rows disjoint, so independent with the stated laws; change of measure for the weight; sum over rows. First row of ImportanceABC: negation with uniform prior and proposal. |
| C89 | M: `Model/Kernels` (`ksdSum`, `ksd`). S: law with density exp(−U), independent draws as a product measure. P: integration by parts in each coordinate for the Stein identity; Gaussian features whose inner products are the Stein kernel for non-negativity; independence of pairs for the mean square. With stored gradients: negation, exact Gaussian integral. |
| C90 | M: `Model/Metrics.squaredJumpingDistance`. P: lists, finite sums. |
| C91 | M: `Model/Backward.ffbsi` (filter, then backward simulation), ideal generator. S: `smoothingExpectation`, the expectation under the model of a function of the whole path times the likelihoods, by recursion over the observations. P: the history of the filter is kept as a random array; backward simulation given the history is a finite sum over ancestor choices with probabilities proportional to weight × transition density (C83, C84); one filter step carries the weighted path estimate one observation forward (extends C86); induction over observations. Instances: bootstrap filter of any model, nonlinear Gaussian models. |
| C92 | M: `Model/Teki.memberUpdate`, `update` (the row operation of `TemperedEKI.update`). S: `Spec/Eki`: `tempered μ φ T` (density `exp(-T φ)` against `μ`), `covMatrix`, `sampleCov`, `misfit`. P: `meanField` runs the model's own `memberUpdate` with the covariances of the law of the members in place of the sample covariances; the law is found by characteristic functions (`Lemmas/GaussChar`): a Gaussian goes to the Gaussian with Kalman mean and covariance, which by `gauss_bayes` is the one tempered by `T' - T`; induction over the schedule. Finite ensembles: matrix algebra of sample covariances. Assumes nugget 0 (the default 1e-5 changes the targeted law) and that `inv`, `cholesky` are right on positive definite matrices; convergence of a finite random ensemble to the limit is C126. |
| C93 | M: `Model/Teki.startup`, `update`, `nextTemperature` on an ideal generator (`tekiEnv`: keys split by path, normals and simulators read from the tape). S: `stages`, the expectation over independent perturbations and data drawn at the new values, by recursion over stages. P: an update is a function of the draws of its key (`tekiStep`), the draws are independent of everything below the next key (`draws_teki`), then the generic chain law `lintegral_tapeIter`. Assumes measurability of `inv`, `cholesky` and the simulator. Not: the adaptive temperatures (they depend on the ensemble). |
| C94 | M: `Model/Backward.rejection`, `backwardSimulation`, `Model/OnlineSmoothing.propagateSmoother`. S: `Agree Q f g` (equal at the listed arguments); the claim is the existence of a list of arguments whose length is the reported count and which determines the result. P: induction on the rejection loop, then on the scan over times. |
| C95 | M: `Model/SmcMore.rmAdapt`, `rmUpdate`, `rmStartup`, `rmRunFrom` on top of `Model/Smc`. S: `meanAcceptance` (average under normalised weights), `Tune` (lens to the tuned parameter), `forced` (inner sampler made to use a given stepsize), both contracts (`Accepts`, `KeepsParams`) proved for `RandomWalk` and `Underdamped`. P: induction on updates. |
| C96 | M: `Model/SmcMore.adaptG`, `updateG`, `startupG`: the gradients among a particle's fields. P: invariant of moves, resampling and adaptation for `Underdamped`; for `RandomWalk` the invariant that gradients are those of an initial value, and a counterexample. |
| C97 | M: `Model/AbcSmc.adapt`, `forwardLive`, `terminated`, `run`, `scaledDiagCov`. S: `innerChain` (iterates of the inner update), plain means over the particles with weight, variance over all pairs. P: the run law C12 and induction on updates. |
| C98 | M: `Model/AbcSmc` (with `initialDraw`), on an ideal tape. S: `abcEstimate` (written from the recorded ensembles), `simulated`. P: induction on updates (`Lemmas/AliveLaw`): one update turns the estimate of `f` at the new threshold into the estimate of the moved `f` at the old one, and the moves leave the ABC posterior invariant (C87). Missing: thresholds that are hit with positive probability; there `C98_fails_atoms` shows a bias, because moves need distance < threshold and weights keep distance ≤ threshold. |
| C99 | M: `Model/Sessions` (`World`, `exec`: samplers and extras as numbered objects, `summary.parameters` a reference). S: `lastGiven`, `ownValue`. P: induction over the list of calls, on top of C13. Missing (false in the code, `C99_fails_*`): reused extras (`C99_sticky` says exactly what happens), summaries after later calls, summaries with overriding extras. |
| C100 | M: `Model/Sessions` (`StateObj`, `start`, `history`). S: `Right`, `lastValue`. P: case analysis and induction over the history. Missing for the quasi-Newton sampler (false, `C100_fails_*`): new values and other scenarios. Momenta and memory are left out. |
| C101 | M: `Model/LinearInverse` (float arguments, `extract_dimension`, samples, potentials). S: `Spec/Gaussian`, `jointGauss`, `postMean`, `postCov`. P: change of variables for the simulation; `gauss_bayes` for the posterior; a lower triangular factor of a diagonal matrix is diagonal (`lower_factor_diagonal`), existence of Cholesky factors from Mathlib's LDL. Missing (false, `C101_fails_*`): potentials for full covariances, constant for float data. |
| C102 | M: `distanceFunction` in `Model/Abc`, the ABC posterior `abcTarget` of C87. S: `exactInt`, `SimDensity`. P: averages over shrinking Euclidean balls converge, dominated convergence over the prior. |
| C103 | M: `Model/Corrections` (`World`, `exec`: samplers' `correction` attributes and correction objects as numbered objects; the keyword is stored before it is checked). S: `inForce`, `lastSetting`, `Known`. P: induction over the list of calls. Not: the `super_correction` of `RMMetropolis`, `log_update` values other than booleans. |
| C104 | M: `udRun`, `rmStart` in `Model/Corrections` on top of `Model/Startup`, `Model/StandardMcmc`. S: runs of `Mcmc.underdamped` with the recorded parameters. P: C13. Missing (false, `C104_fails_*`): `leapfrog_steps` and the tuned parameter in `initial_extra`. |
| C105 | M: `Model/SsmObject` (attributes, what gradient functions were built from at construction). S: `stateArgs`, `NotReassigned`. P: induction over assignments. `grad` is a parameter. Missing (false, `C105_fails_*`): likelihood value and gradient, reassigned potentials, own gradients. |
| C106 | M: `Model/AbcSessions` (state objects, the three start-ups, programs of runs and assignments). S: `RightStart`. P: invariant `StartConsistent` by induction over runs. Missing (false, `C106_fails_*`): changed values, data, thresholds. |
| C107 | M: `Teki.terminated`, `Teki.runFrom`. S: `sampleVar`. P: `C12_run` and the sample standard deviation. Missing (false, `C107_fails_constrained`): scenarios with `constrain`. |
| C108 | M: as C85. S: `smcMean` (weights from log weights), `temperedMean`. P: second moments of weighted estimates: a resampling or reweighting step adds at most a multiple of 1/n (`Lemmas/SmcVariance`), unbiasedness from C85, Chebyshev for numerator and denominator. Not: adaptive schedules; finite friction (false already for the mean, C85). |
| C109 | M: as C86. S: `filterMean`, `filteringLaw` (predict, update). P: as C108, by induction over observations. |
| C110 | M: as C16 on a tape, whole runs. S: `rowMean`, `meanUnder`. P: the accepted moves from any point and the target have the same null sets, so only constants are fixed by the transition operator; von Neumann's mean ergodic theorem on L2, with the operator built from the two coordinate maps of the stationary pair; truncation for integrable quantities; one accepted move for other starts. |
| C111 | M: as C19 on a tape, whole runs, positive or infinite friction, one leapfrog step. S: as C110. P: infinite friction as C110, the proposal being affine in the noise; finite friction on position and momenta jointly: two updates reach everything, and from any start the law has a density once a move is accepted, which happens. Missing: more leapfrog steps (false in general, `C111_fails`). |
| C112 | M: as C87, whole runs. S: `rowMean`, `meanUnder`, `abcTarget`. P: as C110 on parameter and data. |
| C113 | M: as C110. S: `rowProb`, `probUnder`. P: detailed balance makes the transition operator on L2 symmetric; even powers of a symmetric contraction converge, and what they converge to is fixed by the square, hence constant; densities approximated by bounded ones give the limit uniformly over events from starts with a density; one accepted move gives it from a point. |
| C114 | M: as C111. S: as C113. P: as C113, detailed balance on positions from the measure-preserving involution on phase space; finite friction is not reversible: the adjoint of the transition operator tends weakly to the mean, and the part of two updates with a density turns that into convergence in mean of densities. Missing: more leapfrog steps (false in general, `C114_fails_two_steps`). |
| C115 | M: as C112. S: as C113. P: as C113 on parameter and data. |
| C116 | M: as C113 to C115, runs of two rows. S: `probUnder`. P: convergence from every point and dominated convergence. |
| C117 | M: `Model/TwoDim` (the grid, the search for the first non-zero row, the recursive calls as fuel, `plot`'s choice of limits). S: `Grid`, `density2`, `Visible`. P: cases of one call, induction over calls. Missing (false): margin, termination, limits after a change of potential: `C117_fails_*`, `C117_plot_keeps`. |
| C118 | M: `Model/SvgdSessions` (kernel-parameter objects by number, construction, runs and assignments), on `Model/Svgd`. S: `lastAssigned`, `NoAdaptive`. P: induction over the history and over the updates. Missing (false): `C118_fails_ignored`, `C118_fails_shared`. |
| C119 | M: `Model/AbcScenarios` (`jump`, `sirTimesAndSi`, `transformedSirTimesAndSi`) on the ideal tape. S: `sirRate`, `lvRate`, `jumpProb` (product of transition probabilities and `expMeasure`), `IsChoice`. P: the sites of different events are different, so events are independent; each event's law by `-log` of a uniform draw, rotated by the offset (Lemmas/ExpDraw). |
| C120 | M: `priorSample`, `transformedPriorSample`, `gkUniformSample` and the potentials in `Model/AbcScenarios`. S: `DrawnFrom`. P: `-log` of uniform draws, change of variables (C67). Missing (false): `C120_fails_negative`. |
| C121 | M: `rickerSimulate`, `rickerLikelihoodSample` in `Model/AbcScenarios`, for a float `initial_n` and non-negative observation indices. S: `rickerPath`, `poissonMass`, `IsPoissonDraw` (a draw may be negative where it should be 0, as JAX's can). P: induction over steps; independence of the keys of the path and of the observations. |
| C122 | M: `gkFullData`, `gkTransformedFullData`, `gkLikelihoodSample`. S: `gAndK` (the textbook formula with tanh). P: the normal distribution function at a normal draw is uniform; uniforms on (buffer, 1 - buffer) have density at most (1 - 2 buffer)^-n with respect to uniforms on (0, 1). |
| C123 | M: as C98. S: `abcMean` (mean over the particles with weight), `abcPosteriorMean` (conditional expectation). P: second moments of the alive-particle estimates grow by at most 1/n per update (`Lemmas/AliveVariance`), unbiasedness from C98, independence of the initial particles from their keys, Chebyshev for numerator and denominator. Not: adaptive thresholds and stepsizes; thresholds hit with positive probability (biased, C98). |
| C124 | M: `EnsembleFilter.VecFilter`, `run`, `propagate`, `ensembleKalman` (runs of filters that override the vectorised methods; `run_ofFilter`: the same as `Filtering.run` for filters that do not). S: `enkfEnsembles`, a plain recursion of the update `enkf`. P: induction over observations; the ESS of equal weights is the number of particles (C33). Not: thresholds above 1, with which the code resamples equal weights at each step. |
| C125 | M: `EnsembleFilter.run`, `ensembleKalman` of C124 on the tape (`Spec.Tape`). S: `LG.filterMean`, `LG.filterCov` (moments of the normalised forward density), `InProb`. P: covariances of fresh normals settle (second moments, Chebyshev), the gain is a continuous function of the covariance, Joseph form, induction over observations. Not: almost-sure convergence, rates, non-linear models (where the limit is not the filter). |
| C126 | M: `Teki.start` (transport/sampler.py 24-30 then teki.py `startup`), `runFrom` of C44, C93, on the tape. S: `Spec/Eki` (`tempered`, `misfit`, `covMatrix`, `sampleMean`, `sampleCov`), `InProb`. P: values, data and perturbations of a stage read disjoint parts of the tape (`valueSites`, `dataSites`); noise whose law does not depend on the value is independent of the values (`fresh_noise`); one stage: gain and Cholesky factor are functions of settled covariances (`Settles.moved`); induction over stages; nugget 0: `gauss_tempered`. False with a positive nugget (`C126_fails`); the limit is then `tekiLimit` (`C126_recursion`, any prior with fourth moments). Assumes `inv`, `cholesky` right on positive definite matrices and measurable, no NaN, `term_std` 0. Not: adaptive temperatures, rates, non-linear simulators. |
| C127 | M: `EnsembleFilter.run`, `EnsembleFilter.optimal` (the vectorised methods), on a tape. S: `filteringLaw`, `pathExpectation`, `likelihoodEstimate`, `filterMean` (as C86, C109). P: `C127_shared_key` (a measure preserving rearrangement of the tape turns a run of the vectorised filter into a run with a key for each particle), `C127_unbiased`, `C127_consistent`, `C127_posterior` (exact first draws). Not: `jax.random`'s actual bits; models where the first draws are not exact have the limit started from the law of the first draws (C74). |
| C128 | M: the updates of `RandomWalk` and `Underdamped` with `Metropolis` and `RMMetropolis` on an ideal tape (C16, C19, C23). S: `rwRate`, `udRate`, `rwDrift`: means of the recorded `alpha`, and of the change of the log stepsize, over the posterior and the draws. P: the rate is the mean mass the density shares with its translate by a normal step; translation is continuous in L1 and moves all mass away; dominated convergence and the intermediate value theorem. For leapfrog the acceptance probability is continuous in the stepsize and one at zero. Not: convergence of the adapted stepsizes, behaviour of leapfrog at large stepsizes, stepsizes before adaptation is on. |
| C129 | M: `OneDim.clean`, `OneDim.construct`, `Scen.potential`, `Scen.setLik`: arrays are a shape and row-major entries. S: `RowWise`, `Values`. P: `C129_clean`, `C129_point`, `C129_potential_partial`, `C129_doubleWell` (the library's double well is row-wise). Fails: `C129_fails_assigned` (a potential assigned later is not cleaned), and `C129_fails_sum` (a potential that sums over all entries is not row-wise). Not: numpy broadcasting other than of a number, gradients (C05). |
| C130 | M: the updates of `Underdamped` with `Uncorrected` on an ideal tape. S: `normals m v` (a product of Mathlib's Gaussian measures), `NormalPosterior` (what the gradients add up to), `langevinRows` (the rows of `runFrom`); formulas written out in the statements. P: one update is an affine map of the state and a standard normal vector; the pair of two rows is a chain; affine images of products of Gaussians are products of Gaussians; induction on the number of steps; the mean ergodic toolbox of C110 with a transition that has a density from every start. Not: correlated normal posteriors, finite friction, several leapfrog steps. |
| C131 | M: Model/Svgd (startup and update, sgd), Model/Kernels (Gaussian kernel, ksd). S: `steinField` (average pull at a point), `objective` (mean potential minus mean log Jacobian determinant), product of the normalised posterior. P: Stein's identity coordinate by coordinate, redrawing one particle; derivative of log det at the identity is the trace, diagonal derivatives of the field by C36, sum recognised as the Stein double sum of C72 which is a square by C89. Not: adapted kernels, minibatches, Adam, later updates (momentum-free, but the ensemble is then dependent). |
| C132 | M: Model/Backward (`ffbsi`), Model/Filtering, run on the ideal tape. S: `smoothingExpectation` (with C91), a squared distance of the average over trajectories. P: induction over the observations for the second moment of the backward average (each step adds at most `(w^T B)²/n`), ratio of the two unbiased averages, then conditionally on the filter the trajectories read disjoint sites and each has the backward average as mean. Not: unbounded functions, filters with unbounded weights, optimal filter (its initial draw is not from the model). |
| C133 | M: Model/OnlineSessions: a session is the model's attributes, what `startup` stored, and compiled code per number of particles; actions are assignments, starts and steps. S: `modelAfter`, `initiatedWith`, `expected` (a fresh filter for the current model). P: `C133_partial`, and exactly what every call uses: `C133_first_step`, `C133_exact`, `C133_initiate`, `C133_initiate_exact`. Fails: `C133_fails_step` (bootstrap, new drift ignored), `C133_fails_restart` (optimal filter, ignored even after a new start). Not: calls inside `scan`, several model objects. |
| C134 | M: Model/MixtureSessions: attributes and compiled code by argument shape; actions are assignments and evaluations. S: `mixtureAfter`, `mixtureValue`. P: `C134_partial`, `C134_unchanged_partial`, and exactly what is evaluated: `C134_exact`. Fails: `C134_fails` (means and covariances assigned after an evaluation are ignored). Not: direct calls of the component functions, assignments that change the number of components. |
| C135 | M: Model/Abc (`importanceRun`, `cleanChainAr`) on the ideal tape. S: `weightedAverage`, `abcTarget`, `IsQuantile`. P: rows of longer runs continue those of shorter ones and are independent (C88), so the strong law applies; the first row vanishes in the limit; for acceptance rates empirical quantiles converge (`Lemmas/QuantileLimit`) and few simulations are near the limit. Theorems: `C135_importance`, `C135_vanilla`, `C135_rate`. Not: atoms at the quantile (there the strict comparison drops the atom, C61). |
| C136 | M: `Filtering.initiateParticles`, `propagate`, `online` on an ideal tape. S: `reports` (what the program sees after each call), `onlineEstimate`, `trajectoryMean`, `Unrelated` keys; the target is `pathIntegral`/`smoothingExpectation` of C132, for the latest state `terminal`. P: the stored trajectories are the particles of a filter on trajectories (`pathFilter`, `Tracks`), whose weights are proper because the one of the states is; then the moments of C103/C132. Cases: any proper filter (`C136_proper`), latest state with either `full` (`C136_latest`), bootstrap, nonlinear Gaussian; `C136_record_overwritten` gives the failure of the estimate from stored weights. Not: propagate_particle_smoother. |
| C137 | M: `Online.calls true` (successive `propagate_particle_smoother` calls, before the lag) on a tape, from `initiateParticles`. S: `smoothingExpectation` (expectation under the model weighted by likelihoods), `Unrelated` keys, `PathMeasurable`. P: each call splits into a resampling half (done in place on the stored ensemble) and a moving half; first and second moments of the backward average over the stored record by induction on the calls, then C132's bound for the backward pass (`mse_core`). `C137_proper` (any properly weighted filter), `C137_bootstrap`, `C137_nonlinear_gaussian`; example with two calls. Not: calls past the lag (stitching), rejection bounds below the transition density (C83). |
| C138 | M: one scenario object with attributes, identity of its gradient functions, and the attributes contained in compiled leapfrog code by gradient functions and number of steps; events assign, `init_grad`, `leapfrog`, evaluation, runs of Underdamped and RandomWalk; a flag for JAX versions where nested compiled functions share code. S: the same actions computed with the attributes current at the call. P: invariants on the stored code over histories; partial, exact and repaired sessions; failures for a Gaussian whose mean is set to 5; what a run on old code records by an invariant of the run. Not: `bfgs_leapfrog` (compiled in the same way), several scenario objects, changes of argument types. |
| C139 | M: `Online.fixedLagStitching`, `propagatePf`, `propagateBs` on a tape. S: `stitchProb` (weight times ratio of transition densities, normalised), `transDens`, `smoothingExpectation` from a given first state. P: `C139_law` (joint law of the choices, all draws of the stitching independent of its inputs), `C139_backward_partial` (the choice is a function of one uniform that nothing else in the call reads), `C139_converges`, `C139_bootstrap` (quotient of two averages over the smoother's trajectories, each with C137's bound); failures `C139_fails_filter` (probability 3/8 for 1/4) and `C139_fails_backward`; two-state chain as example. Not: rejections within `propagate_particle_smoother_bs` (its keys collide too), several stitchings in a row. The failures rest on the tape giving draws with the same key the same uniform whatever their shape; in JAX they are functions of the same key, and dependent, without being equal. |
| C140 | M: `Online.propagatePf`, `calls false` on a tape. S: `smoothingExpectation`, `smootherMean` (weighted mean over the returned trajectories and their latest weights). P: `C140_proper`, `C140_bootstrap`, `C140_nonlinear_gaussian`: mean squared error recursion over the calls on the filter that carries trajectories along; resampling adds variance at most `b²/n`, dropped weights (effective sample size at least `n - 10⁻³`) add at most `b²/n` by Cauchy-Schwarz, the move is unbiased, and the quotient by the estimated likelihood factor costs a constant; the bound is `6·8^T (w^(T+1) B / z)² / n`. Not: after the lag (C139). |
| C141 | M: `TemperedSessions.smcWrites` (the four writes of `scenario.temperature` made by a tempered run, in order), programs of instructions, a tempered run stopped after any number of its writes. S: `expectedResults` (each MCMC run at the temperature last assigned). P: `C141_partial`, `C141_potential_partial` by induction over the program if every tempered run stopped before it touched the scenario or arrived at the temperature last assigned; `C141_schedule`, `C141_adaptive` say which runs arrive. Fails: `C141_fails_interrupted` (later runs sample the prior, or at the first temperature, or raise an error), `C141_fails_cut` (`max_iter`), `C141_fails_schedule` (schedule that ends below 1), `C141_fails_assigned` (a temperature assigned before is replaced). Not: the traced value itself (any later use of it is taken to raise an error). |
| C142 | M: `SmoothingSessions.step` (one model object with the compiled code of the first draws, of the filter steps and of the backward simulation, kept per sizes; `nested` = whether compiled functions called inside other compiled code share it). S: `smoothExpected` (every call on the current attributes). P: `C142_exact`, `C142_exact_filter`, `C142_exact_backward` say for every history on which attributes each part of a call runs; `C142_partial`: the property holds if no call before the last assignment shares code with this one; `C142_frozen`: with shared nested code, a call repeats on the attributes of the first call of its sizes; `C142_expected_bootstrap` ties the specification to the bootstrap filter of C66. Fails: `C142_fails` (backward simulation, with or without `nested`), `C142_fails_loop` (an estimation loop gets the path of the old model, or of neither model). Not: the internals of jax's cache (key: the object's identity and the array shapes). |
| C143 | M: `RM.correct`, `RM.adapt` around `metropolis`, `randomWalk`. S: `meanAlpha`, `rateAt` (mean acceptance probability at a stepsize), `stepAfter`. P: summation by parts on the update rule of C23; exponential moments of the log stepsize contract outside a range (`Lemmas/Adaptation`), so its mean size is bounded; rates on a box by the normal mass of inward moves. Not: almost-sure convergence; unbounded supports for the rate conditions (there acceptance from far out does not fall below the target uniformly). |
| C144 | M: as C143. S: `rowMean` of the rows of `runFrom`, `meanUnder (target S V)` as in C110. P: with a cut-off, restart after it (`average_after`) and apply C110 at whatever stepsize was reached; without, (position, stepsize, counter) is a Markov chain without invariant law: updates at nearby stepsizes have nearby means (`Lemmas/GaussScale`), updates at stepsizes in a range forget geometrically (one update reaches a fixed share of the posterior), stepsizes stay in a range with high probability (C143), so the mean square of the centred average vanishes (`Lemmas/ErgodicMixing`). Not: almost-sure convergence; unbounded supports without a cut-off. |
| C145 | M: `SsmConstruct.linear`, `nonlinear`, `lorenz63`, `lorenz96` on values that are floats or arrays with at most two axes, with `@`, broadcasting `+`, `reshape` and errors; the sampling methods. S: `Given`, `HoldsGiven`, `gauss`. P: case analysis on what is given; C27 for the laws. Fails: transition matrix alone raises; mismatched arguments are accepted and raise later; Lorenz96 ignores its arguments for `dim`; variances given as vectors move all entries together; Python floats raise; transition noise of NonLinearGaussian (C27). Not: arrays with more axes. |
| C146 | M: as C85 with `nextTemperatureAdaptive` and `bisect`. S: `smcMean`, `temperedMean`, `InProb`. P: an SMC recursion with arbitrary data-dependent temperatures in [0, Tmax] (`Lemmas/SmcAdaptive*`): unnormalised estimates are close to their targets uniformly over temperatures, by compactness of families of moved functions, and second moments of resampling given the past; the model is that recursion off the event that the first temperature is 0, whose probability tends to 0 by the law of large numbers for the effective sample size and an analysis of the search from 0. Not: other inner samplers; number of updates growing with the ensemble (see C147 for reaching the maximal temperature). |
| C147 | M: as C146. S: `essOf`, `NoLoss`, `smcMean`, `temperedMean`. P: reweighting lowers the effective sample size by no more than the square of a weighted mean (`ess_drop`); weighted means of the moved ensembles are close to tempered means, which are bounded below uniformly in the temperature (`small_step`, `tempered_lower`); an invariant of the regula falsi (`Bracket`) turns this into a lower bound on the step; equal weights stall only if all potentials are equal, which has probability tending to 0. Not: that stalls end when the resampling threshold is below 1 (temperatures need not move although the ensemble does). |
| C148 | M: `Smc.rmUpdate`, `rmAdapt`, `rmRunFrom` with the random walk on an ideal tape (`rmTape`). S: `smcMean`, `temperedMean`, `InProb`. P: the transition kernels of the inner sampler form a family over (temperature, log stepsize) that is totally bounded in mean for every compact box (`NetFamily`, `rw_net`), so laws of large numbers hold uniformly over the random parameters; log stepsizes stay in a deterministic box because acceptance rates lie in [0, 1]; induction over updates (`tRun_ok`) and refinement of the model's run to the reduced one (`rm_reduced`). Not: inner samplers other than the random walk; a first temperature of 0. |
| C149 | M: `AbcSmc.startup`, `AbcSmc.update`, `nextThresholdAdaptive` with `RandomWalkABC` on an ideal tape (`abcSmcRun`). S: `abcMean`, `abcPosteriorMean`, `InProb`. P: laws of large numbers uniform over all thresholds, from a finite net of thresholds (`Alive.thresholds`, `CutMove.net`); the empirical quantile then has limiting mass `ρ` times that of the previous threshold (`nextLaw`); induction over updates (`thrRun_ok`, `redRun_ok`); the model's state is the reduced one on an event whose probability tends to 1 (`adaptive_state`, `linked_tendsto`). Not: adapted stepsizes; inner samplers other than the random walk; distances with atoms. |
| C150 | M: the functions of `metrics.py` of C34, C35 and C90 applied to the rows of a run of C110. S: `stationaryMean`, `stationaryCov`: expectations over a state drawn from the posterior and the state a given number of updates later; `InProb`. P: windows of successive states form a chain with the same draws that inherits invariance, irreducibility and regularity, so averages of functions of two states obey the law of large numbers of C110; then continuity. Fails: with a fixed `max_lag_eval` only the first `2 * _next_pow_two(max_lag_eval)` rows enter, so the reported autocorrelation at lag 1 does not converge to that of the chain whenever an update may stay at the start (`C150_fixed_lags_fails`). Not: the self-consistent window of `max_lag_iat=None`; rates. |
| C151 | M: `distances`, `median` (mean of the two middle entries of the sorted list), `medianBandwidth`; `meanBandwidth` of C45. S: counts of pairs, kernel values at all ordered pairs (`kernelValues`), sums over pairs. P: order statistics of a sorted list and monotonicity of the kernel in the distance. Fails: the median rule returns 0 when more than half of the ordered pairs coincide, for instance when one of four particles differs (`C151_median_clones_fails`; exactly then: `C151_median_positive_iff`). Not: cost; rounding. |
| C152 | M: the plotting functions of `metrics.py`; an axis is the list of calls made on it (`Model/Plots.lean`). S: `IsSeries`, `ShowsRows` (what is to be shown), `DrawnOn` (these calls and no others), `barAt` (height of the bar at a position). P: cases, and induction over the list of bars. Fails: with `len < last_n < 2 * len` the slice starts at a negative index and `trace_plot` shows only the last `last_n - len` values (`C152_trace_fails`); the bar of lag `k` stands at `k + 1` (`C152_autocorrelation_shifted_fails`). Not: what Matplotlib draws; keyword arguments passed on; indices of coordinates that do not exist; the warning about concatenation. |
| C153 | M: the run of C110 and C113. S: `BoundedSupport`, `share` (explicit), `rowProb`, `probUnder`, `rowMean`, `meanUnder`, mean squared error as an integral over the random numbers. P: one update has at least the share `share` of the posterior (acceptance is at least `exp(m - V y)`), hence by induction `j` updates have `1 - (1 - share)^j` of it (`Lemmas/Doeblin.lean`); second moments of sums by the first-step recursion of C110. Unbounded supports: `j` updates rarely move further than a fixed distance. Not: rates on unbounded supports. |
| C154 | M: the ABC run of C112 and C115. S: `BoundedPrior`, `abcShare` (explicit), `abcRows`, `abcTarget` (C87), `rowProb`, `probUnder`, `rowMean`, `meanUnder`. P: the change of variables for one stepsize per coordinate, the share of the ABC posterior in one update, then `Lemmas/Doeblin.lean` on the set of parameters in the prior support; Chebyshev. Not: adapted stepsizes; unbounded priors (C112, C115 without a rate). |
| C155 | M: the importance ABC runs of C88 and C135. S: `standardError`, `Covers`, `weightedAverage` (C135), `meanUnder`, `abcTarget` (C97). P: rows other than the first are independent with one law (`rowPair_iid`), the central limit theorem and the strong law of Mathlib, and the convergence of the standardised error (`Lemmas/ErrorBars.lean`). Not: runs with `acceptance_rate` in place of a threshold; speed of the convergence. |
| C156 | M: the VanillaABC run of C88 and C135. S: `acceptedPairs`, `EntriesIn`, `abcTarget` (C97), `normalised`. P: rows are independent with one law (`rowPair_iid`, `vanilla_row_law`); induction on the run length for the entries that fall in a set (`Lemmas/Accepted.lean`). Not: runs with `acceptance_rate` in place of a threshold, where the threshold depends on all rows. |
| C157 | M: `Mcmc.runFrom` with `randomWalk`, `underdamped`, `metropolis`; `importanceRun`. S: `RowsIn`, `continuedRows`, `hamiltonianRows`, `walkRows`. P: prefix from C12; the joint law of stretches with disjoint keys by induction on the stretches (`Lemmas/Segments.lean`). Not: continuing an RMMetropolis run, whose counter and stepsize start afresh; continuing ABC runs, whose data are simulated anew (C106); keys that share descendants. |
| C158 | M: `Model/ScenarioKwargs.lean` (`hasAttr`, `store`, `takeKwargs`, `build`) on top of `Scenario.construct`. S: `latestArg`, `askedPrior`, `askedLik`, `askedTemp`. P: induction over the arguments. Fails: `temperature` (ignored) and `dim` (raises) for objects whose class gives them no value. Not: arguments of the wrong type; properties, whose stored value is shadowed. |
| C159 | M: `Model/GaussianConstruct.lean` (`new`, `broadcast`, `entry`, `potential`): arrays as lists, with NumPy's broadcasting. S: `askedQuadratic`. P: cases over the arguments given; C27 for the factor of a matrix. Fails: `dim` other than 1 and the dimension of the arrays (`C159_fails_precision`, `C159_fails_raises`), float means (`C159_fails_float`). Not: points with several rows; covariances without axes. |
| C160 | M: `Model/TwoDimPlot.lean` (`linspaceOf`, `plot`) on top of `plotLims` and `vecPotential` (C117). S: `ShowsTarget`, `Fills`. P: rounding to the nearest grid point; cases over the limits given. Fails: limits passed together with axes are ignored (`C160_fails_axes`); `xlim` assigned without `ylim` makes `plot()` raise (`C160_fails_half_set`). Not: what `contourf` makes of its arguments; colours. |
| C161 | M: the runs of C143/C157 (`walkRows`, `hamiltonianRows`, `phaseRows`, `abcRows`, `adaptiveRows`), with the ideal tape of random numbers. S: `RowsIn`, `chainsMean`, `chainsError`, `HonestAcross`. P: a run reads the tape only below its key, so runs with disjoint keys read disjoint sites; the law of the vector of rows does not depend on the key (C157 on boxes, which generate); then the strong law and the central limit theorem with estimated variance of C155. Not: other samplers, the bias of a single finite run (C153 bounds it on bounded supports), a number of runs that grows together with the length of the runs. |
| C162 | M: the filters of C86 and C109 (`run`, `bootstrap`, `optimalFilter`) on the ideal tape. S: `pooledLikelihood`, `pooledMean`, with `likelihoodEstimate`, `filterMean` and `filteringLaw` of C86/C109. P: a run reads the tape only below its key, so the final particle systems of the runs are independent; each is properly weighted for the unnormalised filtering law (C86); the likelihood estimate never exceeds the product of the weight bounds; Chebyshev for the average of the estimates and for the average of the centred numerators. Not: potentials unbounded below, unbounded functions, the joint growth of runs and particles beyond the uniform constant. |
| C163 | M: as C85. S: `pooledNorm`, `pooledSmcMean`, `manyRuns` (independent prior draws for every run, one ideal generator), with `smcMean` and `temperedMean` of C108. P: a run reads the tape only below its key and only its own initial values, so runs are independent (`tape_indep`); each is properly weighted (C85); the estimate never exceeds the product of the weight bounds; Chebyshev as in C162 (`Lemmas/Pooling`). Not: adaptive schedules, finite friction (biased, C85), unbounded likelihoods. |
| C164 | M: as C98. S: `abcEvidence`, `pooledAbcEvidence`, `pooledAbcMean`, with `abcMean` and `abcPosteriorMean` of C123. P: a run reads the tape only below its key (`abcRunEst_below`), so runs are independent; each estimate is unbiased (C98) and at most one; Chebyshev for the average and for the ratio (`pooled_ratio`). Not: adaptive thresholds, stepsize adaptation (C98). |
| C165 | M: as C162, C163, C98. S: `HonestRuns`, `runsMean`, `runsError` (`Lemmas/SubtapeRuns`), with the estimates of C162, C163 and C164. P: a run is a function of the part of the tape of its key (`run_subtape`, `redIter_subtape`, `abcRunEst_subtape`), so runs are independent copies; unbiasedness (C86, C98) gives the means; strong law and central limit theorem with estimated variance (`Lemmas/ErrorBars`, `honestRuns`). Hypothesis: a run is not degenerate (shown for cases). Not: adaptive thresholds or temperatures; the ensemble Kalman filter (biased). |
| C166 | M: as C162, C163, C98. S: `RareErrors` (`Lemmas/RunTails`) with `runsMean` of C165. P: runs are independent copies (C165); unbiasedness gives the means; Hoeffding's inequality (Mathlib's sub-Gaussian bounds) for the two one-sided sums of weight times (deviation minus eps), which also covers runs that all have weight zero. Not: adaptive thresholds and temperatures; the ensemble Kalman filter (biased). |
| C167 | M: as C60, C88. S: `acceptedPairs` (C156), `weightedAverage` (C135). P: rows are independent with one law (`rowPair_iid`, `vanilla_row_law`); `Lemmas/RunTails`. Not: ImportanceABC (its first row comes from the prior, C88), acceptance rate instead of threshold. |
| C168 | M: as C161. S: `RareAcross`, `chainsMean` (C161). P: the rows of a run as a random vector that depends only on draws under its key (`pathVec_law`, `pathVec_dependsOn`); `rareErrors_one` (Hoeffding). Not: the bias of one run, which starts at a given point (C153), RMMetropolis for other samplers than RandomWalk. |

## 4. Trusted base

* Lean's kernel. Axioms: only `propext`, `Classical.choice`, `Quot.sound`; the dependence of each theorem is listed in
  section 7 (generated by `tools/axioms.py` from `#print axioms`).
* The reading of the Python source into the definitions of `Verif/Model`, with the simplifications in each comment and in
  section 5.
* Exact real arithmetic in place of IEEE float32, except where `Fl` is used (special values, not rounding).
* Library behaviour: section 2, and the hypotheses named in section 5. Each such hypothesis is a definition in Lean (e.g.
  `IsCholesky`, `ValidChoice`, `ValidSearchsorted`, `ValidPpf`, `SolvesOde`) that appears in the theorem's statement and is
  shown to be satisfiable.
* Theorems about probability laws of whole procedures (C83 on) use an ideal generator (`Spec/Tape`): keys are paths of splits, each key carries independent
  uniforms, draws with equal keys coincide and draws with different keys are independent. `IsCategorical` says how a uniform selects an index.
* Not modelled: drawing, timing, device placement, `__repr__`, warnings; reuse of compiled code other than in C133, C134 and C138. Of `scenarios/twodim/vectorise.py` only the choice of axis limits.

## 5. What is modelled, file by file

* **core.py**. cdict 20-84 (copying on a heap of objects, pytree flattening, indexing, addition), save/load 91-121 (file
  system effects one by one, crash at any point), Scenario 146-230 (attributes and the gradients captured when they were last
  built), and `clean_1d` with its use at construction (C129). Not: abstract methods that raise.
* **sample.py**, **mcmc/sampler.py**. Construction, startup, parameter precedence, the update loop, termination. "The
  parameters a run uses" (C13) are those recorded in the run's `extra`; `Underdamped` and the quasi-Newton sampler read `leapfrog_steps` (and `pos_def_r`) from
  `sampler.parameters` instead (C104). Several runs sharing sampler, extra and state objects, and
  `summary.parameters`: `Model/Sessions`. Not: other entries of `summary`, `deepcopy`.
* **mcmc/**. Random walk, overdamped, underdamped proposals; Metropolis and general Metropolis-Hastings acceptance; Robbins-Monro
  adaptation; quasi-Newton sampler with its memory. Acceptance uses `Fl`. `mh_acceptance_probability` (metropolis.py 18-33) calls
  `sampler.proposal_potential`, which no sampler defines: it is modelled with that function as a parameter. QN invariance (C70) is for
  a fixed memory; the `max_val` box breaks the composition with momentum refresh, stated with the box as part of the target.
* **utils.py**. gaussian_potential, leapfrog, while loop, bisect, leave-one-out, covariance factors, BFGS factors, localisation, gain.
* **metrics.py**, **kernels.py**. ESS, autocorrelation (FFT as the exact circular convolution), IAT, squared jump distance, KSD,
  Gaussian / IMQ / preconditioned kernels. Not: plots, median bandwidth.
* **transport/smc.py**. Tempered SMC with fixed and adaptive schedules, resampling, MCMC moves as state functions; the Robbins–Monro sampler (its `adapt`, which ignores the monotonicity flag of `RMMetropolis` and uses the target acceptance only) and the gradients among a particle's fields in `Model/SmcMore`. Potentials are finite reals.
  Not: division by temperature 0.
* **transport/teki.py**, **svgd.py**. Ensemble Kalman inversion with a Cholesky that may fail; SVGD with abstract elementwise optimiser. EKI runs in which
  successive temperatures are equal (division by zero) are not represented; a schedule not starting at 0 loses its first entry.
* **ssm/**. Smoothing potentials and gradients, simulation, particle filters (batch and online) with `Fl` log weights, backward simulation with
  rejection, fixed-lag smoothing, Kalman filter and smoother, non-linear Gaussian optimal filter and ensemble Kalman filter, scenarios.
  Not: the `ess` entry of the online smoother; ODE integration (an assumption in C82).
* **abc/**. Importance ABC, ABC-MCMC, ABC-SMC, all scenarios. `quantile` is linear interpolation of the finite distances; `categorical` never picks an entry
  with log weight -inf. The linear Gaussian scenario with float arguments: `Model/LinearInverse`; its Cholesky factors satisfy
  `IsLowerCholesky` (lower triangular, positive diagonal), whose existence is proved. Not: user-supplied initial states with their own data for importance ABC; infinite thresholds in the Robbins-Monro variant.

## 6. Deviations found (properties the code does not satisfy)

Each is proved as a theorem (`..._fails`, `..._violated`, or a named exact statement), except those marked (note).

* Overwriting save: a crash between unlink and write loses both versions; `run.v1` and `run.v2` share a file (C08).
* Scenario gradients stale after assigning `potential`, and for classes with their own `__setattr__` (C10). In one dimension, potentials assigned after construction are not cleaned and sum over the points they are given (C129).
* State-space and ABC Gaussian potentials square the inverse Cholesky factor without a transpose; vector covariances give an array of normalisers (C27, C52, C74, C80).
* BFGS determinant with a scalar diagonal in more than one dimension (C29). Autocorrelation of short chains (C34). IMQ gradients (C37). Mixed derivative of
  the preconditioned kernel (C71).
* Adaptive tempering stalls whenever going straight to the maximal temperature would cost no effective sample size: both ends of the bracket have the same sign and the lower one is returned (smc.py 311-327) (C40). SVGD keeps the first ensemble size as batch size (C45), and without a kernel overwrites the caller's `kernel_params` (svgd.py 37) (C118).
* `auto_axes_lims` drops its margin (vectorise.py 85-88), need not end, and is not repeated when the potential changes (C117).
* `smoothing_potential` raises for two time points (C46). `likelihood_potential_and_grad` is built from the initial potential (ssm.py 42) (C105).
* ABC and ensemble Kalman start-ups keep `simulated_data`, `distance`, `prior_potential` and `threshold` of a start state used before, also when its value, the data or the schedule have changed (abc.py 52-62, abc/smc.py 55-75, teki.py 94) (C106).
* Ensemble Kalman inversion compares the spread of the constrained ensemble with that of the unconstrained initial one (teki.py 81-86, 100, 112) (C107).
* Particle filters use the key of a step twice (C51). Fixed-lag smoothing with lag 0 ignores observations (C56), and with backward simulation and lag 1
  drops the first weights (C73).
* Rejection backward simulation with its default bound parameter is biased (C83).
* SMC with inner `Underdamped` and finite friction is biased: momenta start at zero and are never drawn from their stationary law (C85).
* Kalman filter starts from the square root of the initial covariance (C58); lag-one moment wrong (C59).
* QN damping depends on fill rows (C69).
* ABC: the adaptive threshold can increase for small ensembles (C63); a schedule of length m runs m updates, so the last threshold is used twice;
  an all-dead scheduled ensemble has ess NaN; `ImportanceABC.update` does not advance `iter`; assigning `threshold_schedule=None` on an already
  adaptive sampler raises (notes).
* Exponential draws are negative for uniforms above 1 - 1e-6 and bounded by log(1e6)/rate (C66). Lotka-Volterra rows past `max_iter` (C76). `GKOnlyA` uses c for k (C77).
  `prior_potential` of untransformed SIR and Lotka-Volterra is finite for negative parameters, where its density has infinite mass (SIR.py 63-66, lotka_volterra.py 67-70) (C120).
  `Ricker` with its default integer `initial_n` changes the type of a scan carry, which JAX rejects (note).
* Gaussian mixture weights and shapes (C68). Neal's funnel lacks the state-dependent normaliser (C78).
* Stochastic volatility: time step inverted in the transition potential; default observation covariance is a matrix (C80).
* ImportanceABC (C88, `abc/importance.py` 37–58): the first row of `ImportanceABC` is drawn from the prior but weighted as a draw from the proposal. `C88_importance_fails`: expected total weight n + 1 instead of n.
* Kernelised Stein discrepancy (C89, `metrics.py` 115–123): the cross terms take `grad_potential` where the Stein kernel needs the gradient of the log density, so the sign is wrong for the gradients stored in a sample. `C89_fails`: for exact standard normal draws the expected square does not tend to 0. `C89_batch_negative`: with minibatches the number under the root can be negative (NaN).
* C96: a tempered SMC sampler with `RandomWalk` moves returns `grad_prior_potential`, `grad_likelihood_potential` and `grad_potential` computed from the gradients at initial values, not at the values returned: `C96_randomWalk_fails`, `C96_randomWalk_stale`. (`RandomWalk.proposal` does not compute gradients; `adapt` only combines the stored ones.)
* ABC-SMC moves accept only distance < threshold while weights keep distance ≤ threshold: estimates are biased when the threshold is hit with positive probability, e.g. discrete data (C98).
* `chain.summary.parameters` is the sampler's live parameter object: later runs of the sampler rewrite the summaries of earlier chains, and values given in `initial_extra` are not shown. A reused `initial_extra` keeps the parameters of its first run and ignores later keyword arguments (C99).
* `QNUnderdamped.startup` keeps evaluations already present on `initial_state`, and leaves its own there: reusing the object with a new value or on another scenario starts the chain with stale potentials (C100).
* `abc/scenarios/linear_gaussian.py`: with a 1-d covariance array `prior_sample` computes a dot product and moves all coordinates by the same number; the default data `0.` give a likelihood constant of dimension 1 (C101).
* `leapfrog_steps` in `initial_extra` is recorded but ignored; a stepsize in `initial_extra` is overwritten by 2.38²/dim when the sampler's own is `None` and `RMMetropolis` is used (C104). A rejected `correction` stays on the sampler (C103).
* `Underdamped` with two leapfrog steps, infinite friction and stepsize √2 on a standard normal posterior proposes minus the position every time, so a run keeps the square of its start for ever (C111, C114). A user's choice of settings rather than a bug; the default of one leapfrog step converges.
* The ensemble Kalman filter does not tend to the Kalman filter, even on linear models, when the initial covariance is not diagonal: its first draw has the wrong covariance (C125, from C74).
* Tempered ensemble Kalman inversion does not tend to the posterior on linear Gaussian problems unless the nugget is 0; with the default `10^-5` the limit of the mean is off by a relative amount of that order (C126).
* Online filtering: filter methods are compiled per filter object, model object and number of particles, so parameters assigned to the model after the first step are ignored by later steps with the same number of particles, even after `initiate_particles` is called again (C133).
* `leapfrog` is compiled per pair of gradient functions and number of steps; assigning `mean` or `covariance` of a `Gaussian` keeps the gradient functions, so later trajectories use the old attributes until `init_grad()` is called (C138).
* `propagate_particle_smoother_pf` splits the same key for proposals and for stitching, so that the choice of a recent trajectory depends on the state proposed for the particle of that number; `propagate_particle_smoother_bs` splits the key
  into four for the filter and backward simulation and again for stitching, and the choice for trajectory 1 reads the key of the filter's resampling (C139).
* Tempered SMC runs overwrite `scenario.temperature`: a run that is stopped leaves 0, its first temperature or an unusable traced value, a run cut by `max_iter` leaves the
  temperature it reached, and a temperature assigned before is lost; later MCMC runs sample another distribution without notice (C141).
* Backward simulation is compiled per model object and sizes: parameters assigned between calls are ignored, and forward filtering-backward smoothing of the same sizes returns the old model's paths or a mixture of old and new (C142).
* State-space constructors: a transition matrix alone does not give the dimension; mismatched shapes are accepted and raise later; `Lorenz96` takes 40 dimensions whatever its arguments; covariances given as vectors of variances
  move all entries of a sample by the same number; Python floats raise (C145).
- `autocorrelation` of a run longer than `max_lag_eval` (default 1000) uses only the first `2 * _next_pow_two(max_lag_eval)` rows: it does not converge to that of the chain
  as the run grows, and depends on the start for ever (C150).
- `median_bandwidth_update` returns 0 for particles that are not all equal as soon as more than half of the ordered pairs coincide (C151).
- `trace_plot(last_n)` with `len < last_n < 2 * len` shows fewer values than there are; `autocorrelation_plot` draws the bar of lag `k` at `k + 1` (C152).
- `Scenario(temperature=t)` ignores the argument and samples at temperature 1, and `Scenario(potential=f, dim=d)` raises, because keyword arguments are kept only if the object already has the attribute (C158).
- `Gaussian(n, mean=array([m]))` is a one-dimensional normal with precision `n`; with a mean of another length than `n` its potential raises; a float mean raises (C159).
- `plot(ax, xlim, ylim)` ignores the limits when axes are passed, and raises for a scenario with `xlim` but no `ylim` (C160).
* `GaussianMixture`: attributes assigned after the first evaluation are ignored for arguments of that shape (C134).
* `propagate_particle_filter` overwrites the weights stored for the previous time with zeros when it resamples: the final record does not contain the weights a likelihood estimate needs (C136; `run_particle_filter_for_marginals` keeps them).

## 7. Axioms

* no axioms: 1 theorems: C08_names_collide
* `Classical.choice`, `Quot.sound`, `propext`: 733 theorems
* `Quot.sound`, `propext`: 23 theorems: C01_copy_same, C01_isolated, C01_isolated_back, C02_nested_round_trip, C03_string_missing, C04_rows, C04_row_positions, C04_time, C04_nested, C04_other, C04_only_left, C04_prepend, C05_assoc, C06_no_overwrite, C06_existing_files, C07_load_save, C07_sound, C08_crash_loses_file, C08_overwrite_partial, C08_names_partial, C08_clash_iff, C48_keys, C51_reuse
* `propext`: 15 theorems: C02_flatten_unflatten, C02_tree_map, C02_tree_map_structure, C02_static_is_leaf, C03_string, C03_keys, C03_paths, C04_keys, C04_none, C07_load_missing, C07_load_suffix, C45_reuse, C99_fails_summary_later, C99_fails_summary_extra, C99_fails_reused_extra

Total 772 of 772.
