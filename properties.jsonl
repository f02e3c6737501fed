{"id": "C01", "title": "Conditional killing resampling is the exact conditional law", "statement": "For normalised weights w, the index array A returned by csmc `killing(key, w, i, j, True)` has exactly the distribution of a uniformly cyclically shifted unconditional killing draw conditioned on A[j] = i: for every array a, w[i] * P(A = a) equals P(shifted killing = a and a[j] = i).", "quantifier": "for every particle count N >= 1, every positive normalised weight vector, every pair of indices i, j and every outcome array", "why_tests_cant": "A statistical test on one weight vector with finitely many draws only bounds a few marginals; exactness of a joint law for every N and every weight vector is a universally quantified equality of distributions.", "anchors": ["fbs/samplers/csmc/resamplings.py:killing"]}
{"id": "C02", "title": "Resampling schemes are unbiased", "statement": "The expected number of copies of particle n returned by `systematic`, `stratified`, both `killing` functions (unconditional) and the csmc `multinomial` (unconditional) is exactly N * w[n].", "quantifier": "for every N >= 1, every normalised non-negative weight vector, every particle n", "why_tests_cant": "Unbiasedness is an equality of expectations over a continuous random draw, for all weight vectors; sample averages only check it approximately at one point.", "anchors": ["fbs/samplers/resampling.py:systematic", "fbs/samplers/resampling.py:stratified", "fbs/samplers/resampling.py:killing", "fbs/samplers/csmc/resamplings.py:killing", "fbs/samplers/csmc/resamplings.py:multinomial", "fbs/samplers/csmc/resamplings.py:_standard_systematic"]}
{"id": "C03", "title": "Systematic resampling copies each particle floor(N w) or ceil(N w) times", "statement": "In every call of `systematic` the number of copies of particle n is either floor(N*w[n]) or ceil(N*w[n]); `stratified` deviates from N*w[n] by less than two copies.", "quantifier": "for every N, every normalised weight vector, every value of the uniform draw in (0,1) (every array of draws for stratified), every particle", "why_tests_cant": "Must hold for every real draw and every weight vector; a test sees a handful of keys.", "anchors": ["fbs/samplers/resampling.py:systematic", "fbs/samplers/resampling.py:stratified", "fbs/samplers/resampling.py:_systematic_or_stratified"]}
{"id": "C04", "title": "Resampled indices are always valid, ordered where promised, and never pick a zero-weight particle", "statement": "Every resampling function returns N indices in 0..N-1 whatever the draws; the searchsorted based ones return a non-decreasing array; with draws in (0,1) no particle of weight zero is selected; the unclipped csmc systematic scheme stays in range exactly when the total weight is at least the largest comb point.", "quantifier": "for every N, every non-negative weight vector (not only normalised ones for range validity), every draw", "why_tests_cant": "Out-of-range gathers do not raise in JAX, they clamp or fill, so a test on typical weights cannot exclude them for all weights and draws.", "anchors": ["fbs/samplers/resampling.py:_systematic_or_stratified", "fbs/samplers/resampling.py:multinomial", "fbs/samplers/resampling.py:_sorted_uniforms", "fbs/samplers/resampling.py:killing", "fbs/samplers/csmc/resamplings.py:_standard_systematic", "fbs/samplers/csmc/resamplings.py:killing", "fbs/samplers/csmc/resamplings.py:multinomial"]}
{"id": "C05", "title": "Killing resampling does not disturb uniform weights and keeps the heaviest particle", "statement": "If all weights are equal, `killing` returns the identity arrangement for every key; in general every particle of maximal weight stays at its own position, and a particle of zero weight never stays.", "quantifier": "for every N, every weight vector with positive maximum, every draw", "why_tests_cant": "The docstring claim is about all keys; a test samples a few keys.", "anchors": ["fbs/samplers/resampling.py:killing", "fbs/samplers/csmc/resamplings.py:killing"]}
{"id": "C06", "title": "Conditional resampling pins the reference and multinomial conditioning is exact", "statement": "csmc `multinomial` and `killing` with conditional=True always return A[j] = i; the conditional multinomial law times w[i] is the unconditional law restricted to A[j]=i; conditional `systematic` always refuses with NotImplementedError and never returns indices.", "quantifier": "for every N, every weight vector, all i, j, every key", "why_tests_cant": "Pinning has to survive every draw; exactness is an equality of laws.", "anchors": ["fbs/samplers/csmc/resamplings.py:multinomial", "fbs/samplers/csmc/resamplings.py:killing", "fbs/samplers/csmc/resamplings.py:systematic", "fbs/samplers/csmc/resamplings.py:_conditional_systematic"]}
{"id": "C07", "title": "CSMC forward pass retains the reference trajectory and its lineage", "statement": "After `forward_pass`, uss[k, bs_star[k]] = us_star[k] at every time k, A_k[bs_star[k]] = bs_star[k-1] at every step, every non-reference particle at time k comes from the transition sampler applied to the resampled particles, and tracing ancestors from bs_star[K] reproduces bs_star and us_star.", "quantifier": "for every number of steps K, every particle count, every reference path and index list, every observation path, every user sampler, every key, with multinomial or killing conditional resampling", "why_tests_cant": "It is an invariant of a loop of arbitrary length over arbitrary random draws.", "anchors": ["fbs/samplers/csmc/csmc.py:forward_pass", "fbs/samplers/csmc/resamplings.py:killing", "fbs/samplers/csmc/resamplings.py:multinomial"]}
{"id": "C08", "title": "CSMC weights are normalised at every time", "statement": "Each row of the returned log weights exponentiates to a strictly positive probability vector, and `normalise` is invariant to adding a constant to all log weights and preserves their order.", "quantifier": "for every number of steps, every finite log-likelihood function, every draw", "why_tests_cant": "Holds for all real inputs at all loop iterations.", "anchors": ["fbs/samplers/csmc/csmc.py:forward_pass", "fbs/samplers/csmc/csmc.py:normalise"]}
{"id": "C09", "title": "Backward passes return genuine trajectories", "statement": "`backward_scanning_pass` returns K+1 states and indices with xs[k] = uss[k, Bs[k]] and Bs[k-1] = A_k[Bs[k]] for all k; `backward_sampling_pass` returns K+1 states with xs[k] = uss[k, Bs[k]].", "quantifier": "for every K, every particle system, every ancestor array, every weight vector, every key", "why_tests_cant": "Array reversal and insertion bookkeeping must be right for every length; loops of arbitrary length.", "anchors": ["fbs/samplers/csmc/csmc.py:backward_scanning_pass", "fbs/samplers/csmc/csmc.py:backward_sampling_pass"]}
{"id": "C10", "title": "CSMC with ancestor tracing leaves the smoothing distribution invariant", "statement": "If the reference path is distributed according to the path measure proportional to p(u_0) g_0(u_0) prod_k p(u_k|u_{k-1},v_{k-1}) p(v_k|u_{k-1},v_{k-1}), with uniformly distributed reference indices, then the path and indices returned by `csmc_kernel(backward=False)` have the same joint distribution.", "quantifier": "for every number of particles, every number of steps, every transition kernel and positive likelihood, every observation path, with multinomial or killing conditional resampling", "why_tests_cant": "Exact invariance of a Markov kernel on path space for every particle count is an equality of measures; the repository can only test a Gaussian toy with loose Monte Carlo tolerances.", "anchors": ["fbs/samplers/csmc/csmc.py:csmc_kernel", "fbs/samplers/csmc/csmc.py:forward_pass", "fbs/samplers/csmc/csmc.py:backward_scanning_pass", "fbs/samplers/csmc/resamplings.py:killing", "fbs/samplers/csmc/resamplings.py:multinomial"]}
{"id": "C11", "title": "CSMC with backward sampling leaves the smoothing distribution invariant", "statement": "The same invariance as C10 is expected from `csmc_kernel(backward=True)`.", "quantifier": "for every number of particles, steps, transition kernels and likelihoods", "why_tests_cant": "Equality of measures on path space; a wrong backward weight shifts the law only slightly for weakly informative likelihoods.", "anchors": ["fbs/samplers/csmc/csmc.py:csmc_kernel", "fbs/samplers/csmc/csmc.py:backward_sampling_pass"]}
{"id": "C12", "title": "The forced move leaves the categorical weight distribution invariant", "statement": "Starting from k ~ Cat(weights), the index returned by `force_move(key, weights, k)` is again distributed according to weights (detailed balance), it is always a valid index, and if weights[k] = 1 it is k.", "quantifier": "for every number of particles, every normalised weight vector, every index", "why_tests_cant": "Detailed balance is an identity between probabilities for all weight vectors.", "anchors": ["fbs/samplers/gibbs.py:force_move"]}
{"id": "C13", "title": "The acceptance value reported by the forced move is the probability of accepting the proposal", "statement": "`force_move` returns alpha, documented as the probability of accepting the new sample.", "quantifier": "for every normalised weight vector and index", "why_tests_cant": "Quantifies over all weight vectors; the repository never checks the value.", "anchors": ["fbs/samplers/gibbs.py:force_move"]}
{"id": "C14", "title": "The Gibbs kernel leaves the posterior of x0 given y0 invariant for any number of particles", "statement": "If the forward noising law of (x,y) paths started at the data law factorises backwards through the supplied transition sampler and likelihood, and x0 ~ p(x0|y0) with uniform indices, then the x0 returned by `gibbs_kernel(marg_y=False, explicit_final=False)` is again distributed as p(x0|y0), for explicit_backward False; for explicit_backward True as long as no final weight is numerically one.", "quantifier": "for every number of particles, every number of steps, every state space, every such model", "why_tests_cant": "The headline 'asymptotically exact with a finite number of particles' claim is an equality of measures for every model and every particle count.", "anchors": ["fbs/samplers/gibbs.py:gibbs_kernel", "fbs/samplers/gibbs.py:force_move", "fbs/samplers/csmc/csmc.py:forward_pass", "fbs/samplers/csmc/csmc.py:csmc_kernel", "fbs/samplers/csmc/resamplings.py:killing"]}
{"id": "C15", "title": "The explicit-final initialisation targets the same posterior", "statement": "With explicit_final=True (all particles start from the standard normal reference and are weighted by the initial likelihood) the Gibbs kernel is expected to leave p(x0|y0) invariant when the terminal states are independent of each other.", "quantifier": "for every model whose terminal law is the product reference", "why_tests_cant": "Equality of measures for all models.", "anchors": ["fbs/samplers/gibbs.py:gibbs_kernel"]}
{"id": "C16", "title": "Gibbs kernel bookkeeping", "statement": "The returned x0 equals the last element of the returned us_star; with explicit_backward it equals the selected particle whenever the forward sampler starts at its inputs; all returned indices lie in 0..nparticles-1; the returned flags say exactly where indices changed; these hold along every history of repeated calls; an unknown method in `gibbs_init` is refused.", "quantifier": "for every key, every history length, every sampler, every option combination", "why_tests_cant": "Invariant over unbounded call histories and all draws.", "anchors": ["fbs/samplers/gibbs.py:gibbs_kernel", "fbs/samplers/gibbs.py:gibbs_init"]}
{"id": "C17", "title": "The bootstrap filter's likelihood estimate is unbiased", "statement": "The expectation of exp(-nell) returned by `bootstrap_filter` equals the marginal likelihood of v_1..v_K under the model given by init_sampler, transition_sampler and the conditional likelihood; jointly, the particle average of any function weighted by exp(-nell) has expectation equal to the unnormalised filtering integral.", "quantifier": "for every particle count, every K, every model, every unbiased resampling scheme (in particular systematic, stratified, killing)", "why_tests_cant": "An equality of expectations over an unbounded family of models.", "anchors": ["fbs/samplers/smc.py:bootstrap_filter"]}
{"id": "C18", "title": "The pseudo-marginal filter estimate is unbiased", "statement": "The expectation of exp(log_ell) returned by `pmcmc_filter_step` with initial particles from the reference sampler equals the marginal likelihood of the supplied path.", "quantifier": "for every particle count, every K, every model, every unbiased resampling scheme", "why_tests_cant": "An equality of expectations.", "anchors": ["fbs/samplers/smc.py:pmcmc_filter_step"]}
{"id": "C19", "title": "Bootstrap filter output structure", "statement": "With return_last=False the returned array has K+1 rows, row 0 is the initial draw and the last row together with nell equals what return_last=True returns for the same key; `log=False` with a density is expected to give the same result as `log=True` with the log density; if all likelihoods are one, nell = 0.", "quantifier": "for every K, every sampler, every key", "why_tests_cant": "Relates two runs for every key and every length.", "anchors": ["fbs/samplers/smc.py:bootstrap_filter"]}
{"id": "C20", "title": "Pseudo-marginal MCMC accept/reject is atomic and keeps the state coherent", "statement": "`pmcmc_kernel` returns either exactly the old (uT, log_ell, ys) or exactly the proposed triple; the acceptance probability is in (0,1] and equals min(1, exp(proposed - current)); a proposal with a larger estimate is always accepted; along every history the stored log_ell is the filter estimate of the stored ys path that produced the stored uT, and ys[0] stays y0.", "quantifier": "for every key, every history length, every user model", "why_tests_cant": "Invariant over unbounded histories and all draws.", "anchors": ["fbs/samplers/smc.py:pmcmc_kernel", "fbs/samplers/common.py:MCMCState"]}
{"id": "C21", "title": "Pseudo-marginal MCMC targets the posterior", "statement": "The chain of `pmcmc_kernel` leaves invariant the extended target whose x marginal is p(x_0|y_0), for the resampling schemes it is documented with.", "quantifier": "for every particle count, every K, every model, every prior-reversible proposal, every which_u", "why_tests_cant": "Equality of measures; dependence on the chosen particle index is invisible to loose Monte Carlo checks.", "anchors": ["fbs/samplers/smc.py:pmcmc_kernel", "fbs/samplers/smc.py:pmcmc_filter_step", "fbs/samplers/resampling.py:stratified"]}
{"id": "C22", "title": "The PCN proposal preserves the Gaussian path prior and is reversible", "statement": "If x and the two sampler outputs are independent draws from the same Gaussian law with the given mean, the output of `pcn_proposal` has that law and (x, output) is exchangeable with correlation 2/(2+delta); components that the sampler holds fixed at the mean stay fixed.", "quantifier": "for every delta >= 0, every dimension, every mean and covariance", "why_tests_cant": "An identity between laws for all parameters.", "anchors": ["fbs/samplers/smc.py:pcn_proposal", "fbs/samplers/smc.py:pmcmc_kernel"]}
{"id": "C23", "title": "Twisted SMC weights are normalised and properly weighted", "statement": "The returned log weights exponentiate to a probability vector; with the running normalising constants, the weighted particles have expectation equal to the integral of the test function against p(x_0..x_K) times the final twisting function, whatever proposal and intermediate twisting functions are used.", "quantifier": "for every particle count, every K, every proposal density, every twisting sequence, every unbiased resampling scheme", "why_tests_cant": "An equality of expectations for all models.", "anchors": ["fbs/samplers/smc.py:twisted_smc"]}
{"id": "C24", "title": "Random keys are never consumed twice", "statement": "In `gibbs_kernel`, `csmc_kernel`, `pmcmc_kernel`, `bootstrap_filter`, `twisted_smc`, `force_move` and the resampling functions the keys consumed by random draws are pairwise distinct and none is derived from another.", "quantifier": "for every number of steps, every branch of options, every outcome of earlier draws", "why_tests_cant": "Key collisions do not raise and change laws silently; the claim is over all loop lengths.", "anchors": ["fbs/samplers/smc.py:pmcmc_kernel", "fbs/samplers/smc.py:bootstrap_filter", "fbs/samplers/smc.py:twisted_smc", "fbs/samplers/csmc/csmc.py:csmc_kernel", "fbs/samplers/gibbs.py:gibbs_kernel", "fbs/samplers/csmc/resamplings.py:killing"]}
{"id": "C25", "title": "The backward particle smoother draws with independent keys and returns filter particles", "statement": "`bootstrap_backward_smoother` returns K+1 states, each being one of the filter particles of its time, and consumes pairwise independent keys.", "quantifier": "for every K, every particle system, every key", "why_tests_cant": "All loop lengths and all draws.", "anchors": ["fbs/samplers/smc.py:bootstrap_backward_smoother"]}
{"id": "C26", "title": "Linear SDE discretisation is consistent under refinement of time", "statement": "For the three linear SDE classes, discretise(t,s) = (F,Q) satisfies F(s,s)=1, Q(s,s)=0, F(t,r) = F(t,s)F(s,r) and Q(t,r) = F(t,s)^2 Q(s,r) + Q(t,s), and mean/variance agree with F and Q.", "quantifier": "for all times and all parameter values for which the coefficients are defined", "why_tests_cant": "Universally quantified real identities.", "anchors": ["fbs/sdes/linear.py:StationaryConstLinearSDE", "fbs/sdes/linear.py:StationaryLinLinearSDE", "fbs/sdes/linear.py:StationaryExpLinearSDE", "fbs/sdes/linear.py:make_linear_sde"]}
{"id": "C27", "title": "Discretisation matches the drift and dispersion of the SDE", "statement": "For each linear SDE class the maps t -> F(t,s) and t -> Q(t,s) solve dF/dt = a(t) F and dQ/dt = 2 a(t) Q + b(t)^2 where a, b are the coefficients used by `drift` and `dispersion`, and are the only solutions with F=1, Q=0 at t=s.", "quantifier": "for all times s, t and all parameter values", "why_tests_cant": "Differential identities over the reals.", "anchors": ["fbs/sdes/linear.py:StationaryConstLinearSDE", "fbs/sdes/linear.py:StationaryLinLinearSDE", "fbs/sdes/linear.py:StationaryExpLinearSDE"]}
{"id": "C28", "title": "The linear beta schedule", "statement": "beta(t0) = beta_min, beta(T) = beta_max, beta is affine and positive between, and beta_integral(t,s) is the integral of beta from s to t.", "quantifier": "for all t0 < T, 0 < beta_min <= beta_max and all s, t", "why_tests_cant": "Universally quantified integral identity.", "anchors": ["fbs/sdes/linear.py:StationaryLinLinearSDE"]}
{"id": "C29", "title": "Stationarity and variance bounds", "statement": "The stationary variance is preserved by F and Q (F^2 S + Q = S), Q is non-negative and strictly positive for t > s, increasing in t and never exceeds the stationary variance, and F lies in (0,1) for t > s.", "quantifier": "for all admissible parameters and all times s <= t", "why_tests_cant": "Universally quantified inequalities over the reals.", "anchors": ["fbs/sdes/linear.py:StationaryConstLinearSDE", "fbs/sdes/linear.py:StationaryLinLinearSDE", "fbs/sdes/linear.py:StationaryExpLinearSDE"]}
{"id": "C30", "title": "The conditional score is the gradient of the log transition density", "statement": "cond_score_t_0(x, t, x0, s) is the derivative in x of the log density of N(F(t,s) x0, Q(t,s)) at x.", "quantifier": "for every x, x0, s < t and every SDE class", "why_tests_cant": "A derivative identity at every point.", "anchors": ["fbs/sdes/linear.py:make_linear_sde", "fbs/sdes/linear.py:make_ou_sde"]}
{"id": "C31", "title": "Forward simulation is exact on every grid", "statement": "`simulate_cond_forward(keep_path=True)` returns a path starting at x0, of the length of ts, whose state at ts[k] is Gaussian with mean F(ts[k],ts[0]) x0 and variance Q(ts[k],ts[0]) whatever intermediate grid is used; keep_path=False at one time has that same law; t0=None is documented to mean ts[0]; with a vector of times and keep_path=False row k is meant to have the law at ts[k].", "quantifier": "for every grid, every number of steps, every x0, every SDE class", "why_tests_cant": "Law equality for grids of every length.", "anchors": ["fbs/sdes/linear.py:make_linear_sde", "fbs/sdes/linear.py:make_ou_sde"]}
{"id": "C32", "title": "make_ou_sde and make_linear_sde agree", "statement": "For a<0 the OU utilities built by `make_ou_sde(a,b)` and by `make_linear_sde(StationaryConstLinearSDE(a,b))` give the same discretisation, conditional score and simulated path for the same key.", "quantifier": "for all a, b, all times, all keys and grids", "why_tests_cant": "Equality for all inputs.", "anchors": ["fbs/sdes/linear.py:make_ou_sde", "fbs/sdes/linear.py:make_linear_sde"]}
{"id": "C33", "title": "Euler-Maruyama time grid, composition and refinement", "statement": "`euler_maruyama` returns a path of the length of ts starting at x0 whose last state is what return_path=False returns; running over a concatenated grid is running twice; with n sub-steps on an increasing grid it equals one sub-step on the uniformly refined grid with the same normals; the sub-step evaluation times are the ones of the refined grid also when ts decreases.", "quantifier": "for every grid, every drift and dispersion, every number of sub-steps, every noise", "why_tests_cant": "Equality of trajectories for all lengths and all functions.", "anchors": ["fbs/sdes/simulators.py:euler_maruyama", "fbs/sdes/simulators.py:discrete_time_simulator"]}
{"id": "C34", "title": "The reverse-time simulator uses the time reversal of the forward process", "statement": "reverse_simulator integrates with drift -f(x,T-t) + g(T-t)^2 score(x,T-t); applying the construction twice recovers the forward drift, and for a linear SDE with Gaussian marginals its mean and variance equations are the exact time reversal of the forward ones.", "quantifier": "for all drifts, dispersions, scores, times", "why_tests_cant": "Functional identities.", "anchors": ["fbs/sdes/simulators.py:reverse_simulator"]}
{"id": "C35", "title": "Doob bridges are pinned and use the h-transform drift", "statement": "`doob_bridge_simulator(replace=True)` returns a path with the length of ts starting at x0 and ending at the target; `bridge_drift` equals drift + b^2 times the derivative in x of the log transition density to the target, and that transition density solves the backward Kolmogorov equation of the SDE.", "quantifier": "for all grids, sub-step counts, targets, states and times before the target time", "why_tests_cant": "Path invariants for all lengths; differential identities at all points.", "anchors": ["fbs/sdes/simulators.py:doob_bridge_simulator", "fbs/sdes/linear.py:StationaryLinLinearSDE.bridge_drift", "fbs/samplers/gibbs.py:bridge_sampler"]}
{"id": "C36", "title": "The Gaussian Schroedinger bridge interpolates its marginals and drives them", "statement": "marginal_mean and marginal_cov equal (mean0,cov0) at t=0 and (mean1,cov1) at t=1; under the returned affine drift and constant dispersion the mean and covariance equations are solved by marginal_mean and marginal_cov; the cross covariance C satisfies C^2 + sig^2 C = cov0 cov1, the optimality condition of the entropic coupling.", "quantifier": "for every dimension, every positive definite cov0, cov1, every sig, every t in [0,1]", "why_tests_cant": "Matrix identities in every dimension.", "anchors": ["fbs/sdes/linear.py:make_gaussian_bw_sb"]}
{"id": "C37", "title": "The IPF losses agree with each other", "statement": "`ipf_loss_cont` and `ipf_loss_cont_v` return the same value for the same key; with parametric map x + b dt and simulator map x + f dt, `ipf_loss_disc` is nsteps times that value; all are non-negative and vanish exactly when the matched increments agree at all visited points.", "quantifier": "for every number of steps >= 1, batch, drift functions, times, keys", "why_tests_cant": "Equality of two programs on all inputs.", "anchors": ["fbs/dsb/base.py:ipf_loss_disc", "fbs/dsb/base.py:ipf_loss_cont", "fbs/dsb/base.py:ipf_loss_cont_v"]}
{"id": "C38", "title": "Denoising score matching losses have the score as minimiser", "statement": "The score loss of `make_linear_sde_law_loss` is non-negative and zero when the network returns the conditional score at all sampled points; at a fixed time its population version is minimised pointwise by the score of the noised data law; the random times lie in [t0+eps, T]. The expected loss of any network exceeds this minimum by exactly the weighted mean squared distance to the score, so a continuous network of minimal expected loss equals the score at every time of the loss.", "quantifier": "for every data set, every network, every batch size and number of times, every draw", "why_tests_cant": "Optimality over all functions.", "anchors": ["fbs/sdes/linear.py:make_linear_sde_law_loss", "fbs/sdes/linear.py:make_ou_score_matching_loss"]}
{"id": "C39", "title": "The OU score matching loss and memory-saving losses agree with the general loss", "statement": "For the constant SDE `make_ou_score_matching_loss` uses the same conditional score and scale as `make_linear_sde_law_loss(loss_type='score')`; the save_mem=True variant accepts the same loss types as save_mem=False.", "quantifier": "for every t0, T, data, draw", "why_tests_cant": "Agreement on all inputs, including t0 != 0 and all loss types.", "anchors": ["fbs/sdes/linear.py:make_ou_score_matching_loss", "fbs/sdes/linear.py:make_linear_sde_law_loss"]}
{"id": "C40", "title": "discretise_lti_sde returns the transition moments of the LTI SDE", "statement": "F = exp(A dt) and the returned covariance solves dS/dt = A S + S A^T + gamma with S(0)=0, is symmetric when gamma is, and composes: S(s+t) = F(t) S(s) F(t)^T + S(t).", "quantifier": "for every dimension, every A, gamma, every dt", "why_tests_cant": "Matrix differential identity in all dimensions.", "anchors": ["fbs/utils.py:discretise_lti_sde"]}
{"id": "C41", "title": "Matrix square root and Bures distance", "statement": "`sqrtm` of a positive semidefinite matrix is symmetric, squares back to it; `bures_dist` is zero on equal arguments, symmetric and non-negative.", "quantifier": "for every dimension and all positive semidefinite matrices", "why_tests_cant": "Matrix statements in all dimensions.", "anchors": ["fbs/utils.py:sqrtm", "fbs/utils.py:bures_dist"]}
{"id": "C42", "title": "kl returns the Kullback-Leibler divergence between Gaussians", "statement": "`kl(m0,cov0,m1,cov1)` equals KL(N(m0,cov0) || N(m1,cov1)): it is non-negative, zero exactly when the two Gaussians coincide, and has the right scale.", "quantifier": "for every dimension, all means and positive definite covariances", "why_tests_cant": "The tests only evaluate it at equal arguments, where any multiple of the divergence is zero.", "anchors": ["fbs/utils.py:kl", "fbs/utils.py:_log_det"]}
{"id": "C43", "title": "One epoch of dataset enumeration visits every retained datum exactly once", "statement": "After `init_enumeration(key, batch_size)` the chunks all have size batch_size and together contain each index of 0..batch_size*floor(n/batch_size)-1 exactly once; enumerate_subset returns the batch of the chunk; the last n mod batch_size data are never visited in any epoch.", "quantifier": "for every data set size, every batch size, every key, every number of epochs", "why_tests_cant": "All permutations and sizes.", "anchors": ["fbs/data/base.py:Dataset.init_enumeration", "fbs/data/base.py:Dataset.enumerate_subset", "fbs/data/base.py:Dataset.draw_subset"]}
{"id": "C44", "title": "Image restoration masks split the image losslessly", "statement": "The masks generated for inpainting and super-resolution partition the pixels into unobserved and observed ones of the declared sizes; `concat(*unpack(img, mask), mask) = img` and `unpack(concat(x, y, mask), mask) = (x, y)`; super-resolution keeps exactly one observed pixel per block.", "quantifier": "for every image, every resolution and task size (divisible resolution for super-resolution), every key", "why_tests_cant": "All images, sizes and draws.", "anchors": ["fbs/data/images.py:ImageRestore._gen_supr_mask", "fbs/data/images.py:ImageRestore._gen_inpaint_mask", "fbs/data/images.py:ImageRestore.unpack", "fbs/data/images.py:ImageRestore.concat"]}
{"id": "C45", "title": "Image helpers", "statement": "Channel `concat` and `unpack` are mutually inverse; `normalise(clip)` and `normalise(norm)` land in [0,1], are monotone and idempotent where defined; painting changes exactly the pixels of the rectangle.", "quantifier": "for all images", "why_tests_cant": "All real images.", "anchors": ["fbs/data/images.py:Image.concat", "fbs/data/images.py:Image.unpack", "fbs/data/images.py:normalise", "fbs/data/images.py:Image.paint"]}
{"id": "C46", "title": "The crescent model is internally consistent", "statement": "log_prior_pdf is the log density of the distribution used by the sampler, `score` is the gradient of the log joint density, and `posterior` integrates to one under the trapezoid rule on the mesh it is given.", "quantifier": "for all points and all meshes", "why_tests_cant": "A density identity at all points.", "anchors": ["fbs/data/bayesian.py:Crescent"]}
{"id": "C47", "title": "Sinusoidal time embeddings identify the time", "statement": "`sinusoidal_embedding` returns out_dim values in [-1,1], is defined for every even out_dim, refuses odd ones, and is injective on times within one period of the slowest frequency.", "quantifier": "for all times, all even out_dim, all max_period > 1", "why_tests_cant": "Injectivity over all real pairs.", "anchors": ["fbs/nn/base.py:sinusoidal_embedding"]}
{"id": "C48", "title": "PixelShuffle is a lossless rearrangement", "statement": "The output at (h*s+i, w*s+j, c) is the input at (h, w, (i*s+j)*C+c), every input entry appears exactly once, and the shape is multiplied by s in both spatial axes.", "quantifier": "for all shapes, scales, inputs", "why_tests_cant": "All shapes.", "anchors": ["fbs/nn/utils.py:PixelShuffle"]}
{"id": "C49", "title": "The UNet preserves image shape", "statement": "For every list of dim_mults the UNet accepts an input exactly when height and width are divisible by 2^(levels-1) (given the group norm divisibility), no internal assertion or concatenation fails, and it returns an image of the input shape.", "quantifier": "for every list of channel multipliers, every resolution, every batch size", "why_tests_cant": "All lists of levels and all sizes.", "anchors": ["fbs/nn/unet.py:UNet", "fbs/nn/unet.py:Downsample", "fbs/nn/unet.py:Upsample", "fbs/nn/utils.py:PixelShuffle"]}
{"id": "C50", "title": "Exponential moving average of parameters", "statement": "`ema_kernel` copies the parameters before the start count and afterwards keeps an exponential average: after any history the average is a convex combination of past parameters with the documented weights, and stays in any interval containing all parameters.", "quantifier": "for every history of updates, decay in [0,1], start count", "why_tests_cant": "Unbounded histories.", "anchors": ["fbs/nn/utils.py:make_optax_kernel"]}
{"id": "C51", "title": "Block downsampling corruption", "statement": "`Image.downsample` returns an image of the input shape whose pixel (i, j) is, for one of the ratios 4 and 8 (each drawn with probability one half), the pixel at the centre of the block of ratio x ratio pixels containing (i, j); the result is constant on blocks and downsampling again with the same ratio changes nothing.", "quantifier": "for every image whose sides are multiples of the ratio, every pixel and key", "why_tests_cant": "All image sizes and all pixel values.", "anchors": ["fbs/data/images.py:Image.downsample"]}
{"id": "C52", "title": "The one-step score loss learns the score of the noised data", "statement": "For loss_type='ipf-score' the expected value of `make_linear_sde_law_loss`, with the data drawn independently from any law, is smallest, among all measurable networks, at the score of the data law noised from t0 to t, although the loss only compares consecutive states of the path; the excess of any network is its mean squared distance to this minimiser, which is the only continuous one.", "quantifier": "for every data law, every SDE class, every increasing grid, every batch size, every measurable network", "why_tests_cant": "A minimum over an infinite-dimensional set of functions, for all data laws.", "anchors": ["fbs/sdes/linear.py:make_linear_sde_law_loss"]}
{"id": "C53", "title": "The IPF loss learns the conditional mean of the previous state", "statement": "For loss_type='ipf' the expected value of `make_linear_sde_law_loss`, with the data drawn independently from any law, is smallest at x + F E[X_{k}|X_{k+1}=x] - F x with F the transition coefficient from ts[k] to ts[k+1]; by Tweedie's formula F E[X_k|X_{k+1}=x] = x + Q score(x); the excess of any network is its mean squared distance to this minimiser, which is the only continuous one.", "quantifier": "for every data law, every SDE class, every increasing grid, every batch size, every measurable network", "why_tests_cant": "A minimum over an infinite-dimensional set of functions, for all data laws.", "anchors": ["fbs/sdes/linear.py:make_linear_sde_law_loss"]}
{"id": "C54", "title": "The memory-saving score loss is a denoising loss with one time per sample", "statement": "With save_mem=True and loss_type='score' the times are n increasing numbers in (t0, T] ending with T, sample j is noised from t0 to ts[j], every value is non-negative, and with independent data no measurable network has a smaller expected loss than the score of the noised data law; the excess of any network is its mean squared distance to this minimiser, which is the only continuous one.", "quantifier": "for every data law, every SDE class, every batch size, both choices of times, every measurable network", "why_tests_cant": "A minimum over an infinite-dimensional set of functions, for all data laws.", "anchors": ["fbs/sdes/linear.py:make_linear_sde_law_loss"]}
{"id": "C55", "title": "The backward particle smoother samples the backward-simulation law", "statement": "Given the filter particles, `bootstrap_backward_smoother` draws the last state uniformly among the particles of the last time and, going back, the state at time k among the particles of time k with probability proportional to the transition density to the state already chosen at k+1; the path is returned in the order of time.", "quantifier": "for every K, every particle system, every transition density, every key", "why_tests_cant": "Equality of laws on paths of every length.", "anchors": ["fbs/samplers/smc.py:bootstrap_backward_smoother"]}
{"id": "C56", "title": "The sorted multinomial scheme is exactly multinomial resampling", "statement": "`multinomial` in fbs/samplers/resampling.py, which inverts the weight CDF at normalised exponential spacings instead of sorting uniforms, returns an index array with the law of N independent draws with probabilities w put into non-decreasing order; hence it is unbiased, agrees with the csmc multinomial scheme on every order-independent functional, and never selects a zero-weight particle for draws in (0,1).", "quantifier": "for every N >= 1, every normalised non-negative weight vector, every key, every functional of the index array", "why_tests_cant": "Equality of laws over a continuous (N+1)-dimensional draw; rests on the theorem that exponential spacings are uniform order statistics, for every N.", "anchors": ["fbs/samplers/resampling.py:_sorted_uniforms", "fbs/samplers/resampling.py:multinomial"]}
{"id": "C57", "title": "Marginalising the y path with a bridge keeps the Gibbs target", "statement": "With `marg_y=True`, `gibbs_kernel` and `gibbs_init` replace the forward path of y by a bridge between its two end points: for every draw the path handed to conditional SMC (or to the bootstrap filter) starts at the terminal value and ends at the initial value of the forward y path, on the same grid. If the noising is separable and the bridge is an exact draw from the conditional law of the y path given its ends, one sweep of `gibbs_kernel(marg_y=True)` leaves the conditional law of x0 given y0 invariant, with and without explicit_backward.", "quantifier": "for every model, particle number, grid with at least two times, key and draw", "why_tests_cant": "Invariance of a continuous law under a random sweep; a bridge between exchanged ends gives plausible paths.", "anchors": ["fbs/samplers/gibbs.py:bridge_sampler", "fbs/samplers/gibbs.py:gibbs_kernel", "fbs/samplers/gibbs.py:gibbs_init"]}
{"id": "C58", "title": "The numbering of the reference trajectory does not influence the sampled states", "statement": "The reference indices bs_star only say under which number the reference trajectory is stored in the particle arrays: with killing or multinomial conditional resampling and particles drawn independently, the law of the trajectory returned by csmc_kernel (backward=False) and the law of the x0 returned by gibbs_kernel (all four combinations of explicit_final and explicit_backward, with and without marg_y) are the same for every bs_star. Hence every call of gibbs_kernel leaves the conditional law of x0 invariant for each fixed bs_star, and so does the loop of any length which feeds the returned x0 and bs_star back, also from bs_star = 0 as in the experiments, although the indices returned with explicit_final and explicit_backward are uniform on nparticles of the nparticles + 1 rows only.", "quantifier": "for every model, particle number, number of steps, key, starting indices and number of iterations", "why_tests_cant": "Equality of laws for all index arrays; the experiments only ever start from zeros and the dependence, if any, would be a small bias.", "anchors": ["fbs/samplers/csmc/csmc.py:forward_pass", "fbs/samplers/csmc/resamplings.py:killing", "fbs/samplers/gibbs.py:gibbs_kernel", "experiments/toy/gp_gibbs.py", "tests/test_gibbs.py"]}
{"id": "C59", "title": "The samplers of the experiments target the Euler-Maruyama path law of the reverse process", "statement": "The functions transition_sampler, transition_logpdf and likelihood_logpdf that the experiment scripts hand to the samplers fit together: exp(transition_logpdf) is the Lebesgue density of each particle drawn by transition_sampler; bootstrap_filter with these functions, weighted by exp(-nell) and integrated over all observation paths v_1..v_K, has as expectation the law of (u_K, v_1..v_K) under euler_maruyama (one sub-step per grid step) of the joint reverse process started at (u_0, v_0) with u_0 from the reference law; the conditional SMC sweep with the same functions, run on the targets of all observation paths, returns the law of the whole Euler-Maruyama path. jnp.linspace(0, T, nsteps + 1) meets the grid hypothesis with dt = T / nsteps.", "quantifier": "for all dimensions of u and v, all measurable drifts, dispersions non-zero on the grid, grids of constant spacing dt > 0, particle numbers, unbiased (resp. exact conditional) resampling schemes, keys and test functions", "why_tests_cant": "An identity of integrals over all observation paths; no test compares the filter with the simulator it is supposed to invert.", "anchors": ["experiments/toy/gp_gibbs.py:transition_sampler", "experiments/toy/gp_gibbs.py:transition_logpdf", "experiments/toy/gp_gibbs.py:likelihood_logpdf", "experiments/toy/gp_filter.py:conditional_sampler", "fbs/samplers/smc.py:bootstrap_filter", "fbs/sdes/simulators.py:euler_maruyama"]}
{"id": "C60", "title": "The Gaussian process regression baseline is the exact posterior", "statement": "On a strictly increasing grid the kernel matrix cov_fn(zs, zs) is positive definite. The pair (fs, y0) simulated by the scripts has law N(0, joint_cov), and under that law y0 is N(0, cov_mat + obs_var I) and fs given y0 is N(gp_mean, gp_cov) with the matrices computed by the scripts.", "quantifier": "for all dimensions d, all sigma != 0, ell > 0, strictly increasing grids, obs_var > 0, all routines meeting the contracts of cho_factor and cholesky, all keys and test functions", "why_tests_cant": "An identity between laws on R^(2d); the scripts use gp_mean and gp_cov as the ground truth and nothing tests them.", "anchors": ["experiments/toy/gp_gibbs.py:cov_fn", "experiments/toy/gp_gibbs.py:gp_mean", "experiments/toy/gp_gibbs.py:gp_cov", "experiments/toy/gp_gibbs.py:joint_cov"]}
{"id": "C61", "title": "The score and the reverse drift of the experiments are exact", "statement": "If the noising process starts from N(joint_mean, joint_cov), its state at any grid time has the mean and covariance of forward_m_cov; that law has a Lebesgue density and score(z, t) is the gradient of its logarithm; reverse_drift is affine in the state and drives the time-reversed mean and covariance, with reverse_dispersion as noise.", "quantifier": "for all dimensions, means, positive definite covariances, the three SDE classes with valid parameters, all grids with non-negative transition variances, keys, states and test functions", "why_tests_cant": "A statement about laws, densities and derivatives for all states and times.", "anchors": ["experiments/toy/gp_gibbs.py:forward_m_cov", "experiments/toy/gp_gibbs.py:score", "experiments/toy/gp_gibbs.py:reverse_drift", "fbs/sdes/linear.py:make_linear_sde"]}
{"id": "C62", "title": "The reference samplers draw from the conditional reference law", "statement": "m_ and cov_ of ref_sampler are the mean and covariance of u given v under N(m_ref, cov_ref), and the particles returned by ref_sampler are independent draws from that conditional law. False for the code: the draw is m_ + z @ cholesky(cov_), whose covariance is L^T L instead of L L^T; it is right if and only if cov_ is diagonal, which never happens in the experiments with d >= 2. The init_sampler of gp_twisted.py is right; the posterior sampler of sb/gibbs.py and the last draw of gp_kf.py share the fault. The filter of the scripts is exact for the chain started from the wrong law.", "quantifier": "for all dimensions, means, positive definite covariances, routines meeting the contracts of cho_factor and cholesky, particle numbers, keys and test functions; the negative part for all strictly increasing grids with d >= 2, sigma != 0, ell > 0, obs_var > 0 and all SDE classes", "why_tests_cant": "The mean and the determinant of the covariance are right and marginal variances have the right sum, so moment checks on one coordinate or plots do not reveal it.", "anchors": ["experiments/toy/gp_gibbs.py:ref_sampler", "experiments/toy/gp_twisted.py:init_sampler", "experiments/sb/gibbs.py:ref_sampler", "experiments/sb/gibbs.py:gp_posterior_sampler", "experiments/toy/gp_kf.py:conditional_sampler"]}
{"id": "C63", "title": "What the twisted samplers of the experiments target", "statement": "conditional_sampler of gp_twisted.py, inpainting_twisted.py and supr_twisted.py is consistent with one target for every score, particle number and resampling scheme with unbiased counts: its draw weighted by exp of the normalising constant of twisted_smc has the law of the end of an Euler-Maruyama chain of the reverse process weighted by exp(twisting_logpdf) at the last time. The chain reads drift and dispersion at the end of each step, since twisted_smc hands ts[1:] to the transition, and the weight is the density of y one further denoising step after the last state, not the likelihood of the last state. In the Gaussian process experiment the guidance term is g^2 J^T (y - denoise(u)) / obs_var with J the Jacobian of the affine denoiser.", "quantifier": "for all dimensions, particle numbers >= 1, continuous scores, uniform grids with positive step and non-vanishing dispersion, observations, keys, resampling schemes with unbiased counts and non-negative test functions", "why_tests_cant": "A statement about the expectation of a weighted particle system; a run gives one random draw, and the reading of the coefficients one step late is hidden by the discretisation error.", "anchors": ["experiments/toy/gp_twisted.py:conditional_sampler", "experiments/imgs/inpainting_twisted.py:conditional_sampler", "experiments/imgs/supr_twisted.py:conditional_sampler", "fbs/samplers/smc.py:twisted_smc"]}
{"id": "C64", "title": "The conditional score-based samplers of the experiments", "statement": "gp_csgm.py: cond_m_ref and cond_cov_ref are the moments of the exact posterior noised until T; prior score plus gradient of cond_logpdf is the score of the noised posterior, so reverse_drift is the exact reverse drift of the posterior; conditional_sampler starts from the law N(cond_m_ref, cond_cov_ref). The last part is false for the code: cond_ref_sampler multiplies the noise by the covariance instead of its factor, so the covariance is squared; it is right only if cond_cov_ref is the identity, which never happens in the experiment. inpainting_csgm.py and supr_csgm.py: conditional_sampler draws the end of the chain that draws a fresh noised copy of the observation in each step and moves the other pixels by one Euler-Maruyama step of the reverse process.", "quantifier": "for all dimensions, positive definite prior covariances, obs_var > 0, the three SDE classes where the transition variances are non-negative, observations, keys, measurable score networks and test functions; the negative part for all strictly increasing inputs with unit prior variance, obs_var > 0 and T >= 0", "why_tests_cant": "The law of the start and the gradient identity are statements about all states and all test functions; the mean of the draws is right.", "anchors": ["experiments/toy/gp_csgm.py:reverse_drift", "experiments/toy/gp_csgm.py:cond_ref_sampler", "experiments/toy/gp_csgm.py:conditional_sampler", "experiments/imgs/inpainting_csgm.py:conditional_sampler", "experiments/imgs/supr_csgm.py:conditional_sampler"]}
{"id": "C65", "title": "Attention and normalisation layers of the U-net", "statement": "Attention returns, per pixel, an affine function of averages of the values over all pixels with non-negative weights summing to one (softmax of ten times the similarities); LinearAttention, computed through its context matrix, is an average of the values with the weights sum_d softmax(q)_d softmax(k)_d. Both are equivariant under permutations of the pixels and treat the images of a batch separately. WeightStandardizedConv uses a kernel with mean zero and mean square var/(var+eps) per output channel, and LayerNorm the analogue per pixel. The documented meaning of l2norm (normalisation along the last axis, which makes the similarities cosines) is false: the default axis=1 is the pixel axis, so each channel has unit norm over the pixels and the similarities are only bounded by dim_head, a bound that is attained.", "quantifier": "for all batch sizes, image sizes, head numbers and sizes, parameters, inputs and permutations of pixels", "why_tests_cant": "Shape tests pass with every axis of normalisation; the statements are about all inputs and parameters.", "anchors": ["fbs/nn/unet.py:l2norm", "fbs/nn/unet.py:Attention", "fbs/nn/unet.py:LinearAttention", "fbs/nn/unet.py:WeightStandardizedConv"]}
{"id": "C66", "title": "Corrupted images, restoration pairs and standardised data", "statement": "Dataset.standardise gives every non-constant column mean zero and mean square one, keeps its order and is unchanged by positive scaling and shifts of the data; constant columns become nan. Image.conv returns an image with values in [0, 1], both attained in every channel, invariant under positive scaling of the input; the blur commutes with mirroring for odd kernel sizes; its output is grey, since all channels are summed: images with equal sums of channels have the same blurred image. A black image becomes nan. Image.corrupt dispatches on the task and raises on unknown ones. Image.sampler draws a uniform image of the data set and then its corruption with an independent key; enumerate_subset corrupts each image with its own key. ImageRestore.sampler returns an image, a mask splitting its pixels and the observed pixels, from which concat gives the image back.", "quantifier": "for all data sets, image sizes (at least 8 for super-resolution), kernel sizes, tasks, keys and every outcome of the random draws; mirroring for odd kernel sizes; restoration for rectangles within the image and rates dividing its sides", "why_tests_cant": "Statements about every image and every draw; the loss of colour is not visible in tests on grey images.", "anchors": ["fbs/data/base.py:Dataset.standardise", "fbs/data/images.py:Image.conv", "fbs/data/images.py:Image.corrupt", "fbs/data/images.py:Image.sampler", "fbs/data/images.py:Image._enumerate_jit", "fbs/data/images.py:ImageRestore.sampler"]}
{"id": "C67", "title": "The Kalman filter experiment is not the exact filter", "statement": "adhoc_kf of gp_kf.py, described as exact, computes the law of the reverse Euler-Maruyama chain given the path of the data. This is false: for one observation and the default settings the computed variance is below the noise variance of a single step for every data path, so the computed law differs from the exact one. What a step does compute is the exact Bayes update of another linear Gaussian model, with noise variance sqrt(dt) * dispersion instead of dt * dispersion^2 and with the new v observed from the new u through the derivative with respect to the previous v; its covariances stay positive definite. A step that conditions the previous state through the derivative with respect to u and then predicts is exact.", "quantifier": "step theorems: for all dimensions, affine drifts, positive definite covariances, observations and measurable test functions; negative part: for every data path", "why_tests_cant": "The script plots a mean and a band; a wrong covariance and a missing correlation are not noticed, and the statement is about all test functions.", "anchors": ["experiments/toy/gp_kf.py:adhoc_kf", "experiments/toy/gp_kf.py:cond_state_cov", "experiments/toy/gp_kf.py:cond_obs_mean", "experiments/toy/gp_kf.py:conditional_sampler"]}
{"id": "C68", "title": "Draws from the particle filter in the experiments", "statement": "conditional_sampler of gp_filter.py and sb/filter.py returns particle 0 of bootstrap_filter with stratified resampling as a draw from the filtering law; with more particles the law of the returned value should approach the filtering law. This is false: for a model with two hidden states (a fair coin, likelihoods 3 and 1), one of which has filtering probability 1/4, particle 0 is in that state with probability at least 7/24 for every number of particles N >= 2 and every law of the observed path.", "quantifier": "for every number of particles, all keys, all observation values and times with one step", "why_tests_cant": "The tests average over all particles, for which the filter is right; a bias that does not vanish with N needs a statement about every N.", "anchors": ["experiments/toy/gp_filter.py:conditional_sampler", "experiments/sb/filter.py:conditional_sampler", "fbs/samplers/smc.py:bootstrap_filter", "fbs/samplers/resampling.py:stratified"]}
{"id": "C69", "title": "Starts of the pseudo-marginal chains", "statement": "The first state of a pseudo-marginal chain consists of a path, a particle and the log-likelihood estimate of one filter run on that path. This is false of the code: pmcmc_init of gp_pmcmc.py runs the filter on one path and stores another, independent one, and stores the negative log-likelihood, so that the first move is accepted with the product of two likelihood estimates instead of their quotient; if all log-likelihoods are negative (or all positive) no filter run gives the stored value. The image experiments start with a zero image and log_ell = 0. Proved: whatever the start, every later state is the start or is coherent; and if the log-likelihoods per step are at most b, the chain is still at a start with log_ell = l after n calls with probability at least (1 - exp(K b - l))^n.", "quantifier": "for all models, resampling schemes, numbers of particles and steps, proposals (with and without pCN), keys and numbers of calls", "why_tests_cant": "A chain looks healthy after its first acceptance; how long it stays at the start depends on the model, and incoherence of the start is a statement about every possible filter run.", "anchors": ["experiments/toy/gp_pmcmc.py:pmcmc_init", "experiments/imgs/inpainting.py", "experiments/imgs/supr.py", "fbs/samplers/smc.py:pmcmc_kernel"]}
{"id": "C70", "title": "Samplers of the image experiments", "statement": "Every mask drawn for a task that fits the image splits its pixels into an observed part and an unobserved part of the shape the scripts allocate. For such a mask reverse_drift_u, reverse_drift_v, transition_sampler, transition_logpdf and likelihood_logpdf of the image experiments never raise and are the Euler-Maruyama transition of the whole image, cut into its unobserved and observed pixels; hence the bootstrap filter with them estimates without bias, and conditional SMC with them keeps, the law of the Euler-Maruyama path of the whole image. The observed pixels of a super-resolution task, reshaped to the low resolution, are in the order of the blocks.", "quantifier": "for all image sizes, channel numbers, tasks that fit, masks, drifts that are measurable, step sizes, numbers of particles, path lengths, test functions", "why_tests_cant": "The law of a random program over images of every size and every mask; a wrong pixel order shows only as a biased law.", "anchors": ["experiments/imgs/inpainting.py:reverse_drift_u", "experiments/imgs/inpainting.py:transition_sampler", "experiments/imgs/inpainting.py:likelihood_logpdf", "experiments/imgs/supr.py:transition_sampler", "fbs/data/images.py:concat", "fbs/data/images.py:unpack"]}
{"id": "C71", "title": "Input shapes of the small networks", "statement": "CrescentMLP, GMSBMLP, MNISTResConv, MNISTAutoEncoder and the default network of make_simple_st_nn map a batch of n inputs, with one time for all of them or one time each, to n outputs, so that make_st_nn (which initialises a network with one time per input) works with them. This holds for CrescentMLP (up to the axis of a batch of one) and GMSBMLP. It is false for the others: MNISTResConv takes one time only, and make_st_nn works with it for the batch sizes 1 and 16 only; its resize decoder refuses every input; MNISTAutoEncoder and the default network of make_simple_st_nn refuse every batch; GMSBMLP refuses a single point.", "quantifier": "for all batch sizes, input shapes, hidden layers and output dimensions", "why_tests_cant": "The networks have no tests; acceptance for every batch size is a statement about all shapes.", "anchors": ["fbs/nn/models.py:CrescentMLP", "fbs/nn/models.py:GMSBMLP", "fbs/nn/models.py:MNISTResConv", "fbs/nn/models.py:MNISTAutoEncoder", "fbs/nn/models.py:make_simple_st_nn", "fbs/nn/base.py:make_st_nn"]}
{"id": "C72", "title": "Key discipline of simulators, losses, data sets and experiments", "statement": "Every simulator, training loss, data-set sampler and experiment sampler draws its random numbers only from keys derived from the key it was given, never consumes a key twice and never consumes a key from which another consumed key is split, in every run and for every number of steps; the start of the toy Gibbs chains, which calls the backward smoother, does not.", "quantifier": "all keys, grids, states, networks, drifts, dispersions, tasks, batch sizes, numbers of particles, steps and chain iterations", "why_tests_cant": "Reused keys give correlated numbers that look random in any single output; absence of reuse along every branch and for every number of steps is a statement about all runs.", "anchors": ["fbs/sdes/simulators.py:euler_maruyama", "fbs/sdes/simulators.py:doob_bridge_simulator", "fbs/sdes/linear.py:make_linear_sde", "fbs/sdes/linear.py:make_linear_sde_law_loss", "fbs/dsb/base.py:ipf_loss_cont", "fbs/data/base.py:Dataset.draw_subset", "fbs/data/images.py:Image.sampler", "fbs/data/images.py:ImageRestore.sampler", "experiments/toy/gp_csgm.py:conditional_sampler", "experiments/imgs/inpainting_csgm.py:conditional_sampler", "experiments/toy/gp_filter.py:conditional_sampler", "experiments/toy/gp_gibbs.py:gibbs_init", "experiments/toy/gp_pmcmc.py:pmcmc_init"]}
{"id": "C73", "title": "make_gaussian_bw_sb is the Schrödinger bridge", "statement": "For positive definite cov0 and cov1 and sig != 0: (1) take any process law W whose end points are distributed as those of a Brownian motion of dispersion sig on [0, 1] started from N(mean0, cov0). Among all laws whose end points have the marginals N(mean0, cov0) and N(mean1, cov1) exactly one minimises the Kullback-Leibler divergence from W. It reweights W by a function of the end points only, its divergence is finite, and its end points are jointly normal with the cross covariance C computed by the code. (2) In particular the normal coupling with cross covariance C is strictly closer to the Brownian end points than every other coupling. (3) For every t in [0, 1] the Brownian bridge between coupled end points has the law N(mean(t), cov(t)) returned by the code, and given X_t = x the end point X_1 is normal with mean x + (1 - t) drift(x, t), so that the returned drift is the conditional mean of the bridge velocity.", "quantifier": "all dimensions, means, positive definite covariances, dispersions sig != 0, times in [0, 1], all reference processes with Brownian end points and all competing laws", "why_tests_cant": "Optimality compares with every law that has the prescribed marginals, an infinite-dimensional family; a test can only compare with finitely many Gaussian alternatives, and the conditional law given X_t = x is an event of probability zero for sampling.", "anchors": ["fbs/sdes/linear.py:make_gaussian_bw_sb"]}
{"id": "C74", "title": "Reverse process of the Gaussian Schrödinger bridge experiments", "statement": "For positive definite laws at both ends and unit dispersion: (1) the reverse drift -drift(x, 1 - t) + score(x, 1 - t) of the sb experiments equals the drift make_gaussian_bw_sb returns with the two end laws exchanged, and the two bridges have the same marginal means and covariances at mirrored times; (2) score(x, t) is the gradient of the log density of the marginal law of the bridge at time t; (3) given X_{1-t} = x the start X_0 is normal with mean x + (1 - t) reverse_drift(x, t); (4) the random reference covariance a a^T is positive definite with probability one; (5) on the grid of the experiments the bootstrap filter is exact for the Euler-Maruyama chain of the exchanged bridge, up to the covariance of its first draw (C62); (6) the forward simulators return a path that starts at the given point with one entry per time, draw from fresh keys only, and conditional_sampler fails exactly for an unknown option x0.", "quantifier": "all dimensions, kernels, noise levels, reference covariances, means, times in [0, 1], grids, particle numbers, unbiased resamplers, keys and option strings", "why_tests_cant": "The reversal is an identity between two matrix functions computed through different matrix square roots, for every covariance and time; exactness of the filter is a statement about expectations of every measurable function.", "anchors": ["experiments/sb/filter.py:reverse_drift", "experiments/sb/filter.py:score", "experiments/sb/filter.py:conditional_sampler", "experiments/sb/gibbs.py:fwd_ys_sampler_heuristic", "fbs/sdes/linear.py:make_gaussian_bw_sb"]}
{"id": "C75", "title": "What the iterative proportional fitting losses learn", "statement": "Let the batch be independent samples of any law, the simulated drift be measurable, the dispersion non-zero at the simulated times and consecutive times distinct (increasing or decreasing). Let p_k be the continuous positive density of the simulated point after k + 1 steps. A network equal to sigma(t_k)^2 grad log p_k - f(., t_k) at time t_{k+1}, the drift of the time-reversed process, has finite expected ipf_loss_cont, at most the mean of sigma(t_k)^2 |t_{k+1} - t_k|. Every measurable network b exceeds it by exactly the mean over steps and entries of (t_{k+1} - t_k)^2 E(b - b')^2 at the simulated points, so the reversed drift is the unique minimiser up to null sets. The same holds for ipf_loss_cont_v. For ipf_loss_disc with arbitrary maps F and noise variances gamma_k > 0 the unique minimiser is 2 x + gamma_k grad log p_k(x) - F(x, s_k).", "quantifier": "all sample laws, batch sizes, dimensions, numbers of steps, time grids, measurable simulated drifts and measurable networks, keys", "why_tests_cant": "The minimiser is over an infinite-dimensional class of networks and the density of the simulated chain is an intractable integral; a training run shows one local optimum of one architecture.", "anchors": ["fbs/dsb/base.py:ipf_loss_cont", "fbs/dsb/base.py:ipf_loss_cont_v", "fbs/dsb/base.py:ipf_loss_disc"]}
{"id": "C76", "title": "Training scripts of the image experiments", "statement": "(1) With a batch size between one and the number of data no epoch of the training scripts fails; it makes n / batch_size gradient steps with pairwise different keys on batches of the batch size, which together rearrange the first batch_size * (n / batch_size) data; the last n mod batch_size data are never used. (2) If the gradient steps keep the key discipline, the training loops never draw twice from one key and all keys are derived from the given one; but the permutation of an epoch and the reference samples of a step are drawn from keys that are split afterwards. (3) The random time grids of the Schrödinger bridge script start at 0, end at T, have the configured number of steps and never decrease, and almost surely increase strictly; hence for almost every grid the losses are minimised exactly by the reversal of the simulated drift, forwards for loss_fn_init and loss_fn_bwd and on T - ts for loss_fn_fwd. (4) If every gradient step of a loss gives the network fitted to the simulated one, m + 1 outer iterations compute exactly iteration m of iterative proportional fitting (the first backward network from the reference process, every forward network from the backward network of the same iteration, every later backward network from the forward network before). (5) fwd_sim evaluates its network in [0, T) only; rev_sim in [-T/1280, T], and it does evaluate it before time 0.", "quantifier": "all data sets, batch sizes, numbers of epochs and outer iterations, gradient steps, networks, sample laws, time ranges, numbers of steps, keys", "why_tests_cant": "Key reuse and data that are dropped do not show in any output, and the optimum of the loss is over all measurable networks and almost all random grids.", "anchors": ["experiments/imgs/train.py", "experiments/sb_imgs/train.py:sb_kernel", "experiments/sb_imgs/train.py:loss_fn_init", "experiments/sb_imgs/train.py:loss_fn_bwd", "experiments/sb_imgs/train.py:loss_fn_fwd", "experiments/sb_imgs/train.py:rev_sim", "experiments/sb_imgs/train.py:fwd_sim"]}
{"id": "C77", "title": "Error tables of the Gaussian experiments", "statement": "(1) For independent samples of any law with second moments the sample mean and the sample covariance of the tables are unbiased, and the expected squared error of the mean is variance / n plus the squared bias. (2) The sample covariance handed to the divergences is positive semidefinite, positive definite exactly when no direction is constant over the samples, and singular with at most as many samples as dimensions; the estimators commute with affine maps and ignore the order of the samples. (3) All errors are non-negative and vanish exactly when the corresponding moments match (the Bures error and the divergence: mean and whole covariance). (4) Noise floor: with n independent samples the expected Bures error is at least total variance / n plus the squared bias, and the expected mean error at most the average root of the same. (5) The errors for several chains are the averages over the chains and the mean error is at least that of the pooled mean; the covariance of the contour figure is only the within-chain part of the scatter, zero for chains that never move. (6) The printed mean and standard deviation are those of the runs.", "quantifier": "all sample arrays, numbers of samples, chains and runs, dimensions, laws with second moments, positive definite reference covariances", "why_tests_cant": "The statements are about expectations over all laws of the samples and about all sample arrays.", "anchors": ["experiments/tabulators/tabulate_toy.py", "experiments/tabulators/plot_sb.py", "experiments/tabulators/plot_toy_contours.py", "fbs/utils.py:kl", "fbs/utils.py:bures_dist"]}
{"id": "C78", "title": "Error tables of the image experiments", "statement": "The images entering the table lie in [0, 1]; the peak signal-to-noise ratio is infinite exactly for equal images, symmetric, orders restored images by their squared error, is never negative in the table, and clipping never lowers it for a true image in [0, 1]. The tensor passed to the perceptual distance has values in [-1, 1] and the layout (1, c, h, w) of its docstring.", "quantifier": "all images of all sizes and numbers of channels", "why_tests_cant": "Square images have the same shape in the documented and in the actual layout, so shape checks cannot see the difference.", "anchors": ["experiments/tabulators/tabulate_imgs.py:to_img", "experiments/tabulators/tabulate_imgs.py:to_torch_tensor", "fbs/data/images.py:normalise"]}
{"id": "C79", "title": "Mean square accuracy of the particle filters", "statement": "If the log likelihood is bounded above by b and the resampling scheme is unbiased with conditional variance at most 1/N (stratified, killing, sorted multinomial, csmc multinomial), then for K observations after the first, N particles and every test function with values in [0,1]: (1) the estimate exp(-nell) times the particle mean of bootstrap_filter deviates from the unnormalised filtering integral by at most (2K+1) e^{2Kb} / N in mean square, in particular the likelihood estimate; (2) the plain particle mean deviates from the exact filtering mean by at most 4(2K+1) e^{2Kb} / (Z^2 N) in mean square, and the probability of an error of at least eps is at most that divided by eps^2; (3) a particle at a uniformly drawn index has the filtering law up to 2 sqrt((2K+1)/N) e^{Kb}/Z; (4) the same for pmcmc_filter_step, which resamples before instead of after the transition; (5) systematic resampling does not have the variance bound: for every even N there are weights for which it misses a weighted mean by exactly 1/4 whatever the draw.", "quantifier": "all state-space models with bounded likelihood, numbers of particles and time steps, observations, keys, resampling schemes with the two conditions, measurable test functions", "why_tests_cant": "The statement is about the distribution of the output for every number of particles and gives explicit constants; simulations see one model and noisy averages.", "anchors": ["fbs/samplers/smc.py:bootstrap_filter", "fbs/samplers/smc.py:pmcmc_filter_step", "fbs/samplers/resampling.py:stratified", "fbs/samplers/resampling.py:systematic", "fbs/samplers/resampling.py:killing", "fbs/samplers/resampling.py:multinomial"]}
{"id": "C80", "title": "What the backward particle smoother targets", "statement": "(1) If the backward weights hold the transition density times the likelihood of the next observation given the previous state, then for every number of particles and every unbiased resampling scheme the mean of exp(-nell) phi(trajectory) over the run of bootstrap_filter followed by bootstrap_backward_smoother is the unnormalised smoothing integral of phi. (2) The code uses the transition density alone; the identity then holds if the likelihood does not depend on the state. (3) In general it fails: in a model with two states the smoothing probability of an event is 1/4, and the weighted mean of the smoother of the code is 1/2 for every number of particles and every unbiased scheme. (4) gibbs_init draws an observation path, filters along its reverse and simulates backward through the particles of that run; it returns particle 0 of the last time, a trajectory of particles with one state per time and as many zero indices; its draws use independent keys apart from the first draw of the smoother (C25).", "quantifier": "all state-space models whose transition has a density, numbers of particles and steps, observations, keys, unbiased resampling schemes, test functions", "why_tests_cant": "The bias is a property of the distribution of the output; a run of the smoother always returns a plausible trajectory.", "anchors": ["fbs/samplers/smc.py:bootstrap_backward_smoother", "fbs/samplers/smc.py:bootstrap_filter", "experiments/toy/gp_gibbs.py:gibbs_init", "experiments/sb/gibbs.py:gibbs_init"]}
{"id": "C81", "title": "The reverse drift of the samplers reverses the noising", "statement": "(1) For every law of the data the noised densities p_t of the linear SDE solve the Fokker-Planck equation of its drift and dispersion. (2) With the score of the noised data, the reverse drifts of fbs/sdes/simulators.py, of the image samplers and of the guided samplers, with the dispersion at T - t, satisfy the Fokker-Planck equation of the time-reversed densities p_{T-t}. (3) A continuous network whose expected training loss is minimal gives such a reverse drift at every time of the loss. (4) The end is right: the noised law tends weakly to the data law as the time tends to its start. (5) The start is nearly right: for every Lipschitz function the noised law at T differs from the stationary law, from which the samplers start, by at most K exp(integral of the drift) (E|x0| + sqrt(stationary variance) E|z|).", "quantifier": "all data laws, numbers of pixels, linear SDEs, horizons, interior times, test functions, networks", "why_tests_cant": "The equation relates derivatives of densities at every point of the space and at every time; a sampler run shows neither the densities nor the effect of a small error of the drift.", "anchors": ["fbs/sdes/simulators.py:reverse_simulator", "fbs/sdes/linear.py:make_linear_sde", "experiments/imgs/inpainting.py:reverse_drift", "experiments/imgs/train.py"]}
{"id": "C82", "title": "The Gibbs chains forget where they started and converge", "statement": "(1) One call of csmc_kernel (killing or multinomial, backward scanning) with log potentials bounded above gives every set of trajectories at least a fixed multiple of its mass under the unnormalised target, whatever the reference is. (2) One call of gibbs_kernel has a part that does not depend on the state, if the reversed observation path (explicit_final=True), respectively the end of the noising path with it (explicit_final=False), has one. (3) Then the laws of the state after k iterations of the Gibbs loop from any two starts and any two sets of reference indices differ by at most (1-rate)^k on every event, with an explicit rate, positive for every number of particles with explicit_final=True and for at least two particles otherwise. (4) If the functions are exact for pi0, the law after k iterations from any start is within (1-rate)^k of pi0, and converges to it. (5) Without the condition the chain need not move: with one particle and explicit_final=False, or when the noising leaves the state alone, the loop returns its start after any number of iterations.", "quantifier": "all models with bounded log potentials, numbers of particles and steps, starts, reference indices, numbers of iterations, keys, both selection rules, marg_y on or off for (2) and (3), all measurable test functions bounded by one", "why_tests_cant": "The bound holds uniformly over all starts and all events; a finite run from a few starts cannot tell slow mixing from no mixing.", "anchors": ["fbs/samplers/gibbs.py:gibbs_kernel", "fbs/samplers/csmc/csmc.py:csmc_kernel", "fbs/samplers/csmc/resamplings.py:killing", "tests/test_gibbs.py", "experiments/toy/gp_gibbs.py"]}
{"id": "C83", "title": "The pseudo-marginal chain with independent proposals forgets its start and converges", "statement": "Let the log-likelihoods of a step be at most b and delta=None. (1) A call of pmcmc_kernel from any state whose log_ell is at most L, L at least K*b, refreshes the state from the extended target with probability at least exp(-L) times the likelihood of the model, whatever the stored particle and path. (2) The laws after k calls from any two such states differ by at most (1-rate)^k on every event, for each of the four resampling schemes. (3) From any such state the law after k calls is within (1-rate)^k of the extended target; with an exchangeable scheme and exact separable dynamics the particle is within (1-rate)^k of the posterior, and converges to it from every start, also from the wrong log_ell of the experiments. (4) The rate is in (0,1]; with unbiased resampling it is exp(-L) times the likelihood and does not depend on the number of particles or on which_u.", "quantifier": "all models with log-likelihoods bounded above, numbers of particles and steps, starts, numbers of calls, keys, measurable test functions bounded by one", "why_tests_cant": "The bound is uniform over starts and events, and a pseudo-marginal chain that is stuck at an overestimated likelihood looks the same in a finite run as one that has converged.", "anchors": ["fbs/samplers/smc.py:pmcmc_kernel", "fbs/samplers/smc.py:pmcmc_filter_step", "experiments/toy/gp_pmcmc.py", "experiments/imgs/inpainting.py"]}
{"id": "C84", "title": "Mean square accuracy of twisted_smc and of the sample drawn from it", "statement": "Let the first twisting function and all incremental weights p psi' / (q psi) along the time grid be at most exp(b), K the number of steps, N the number of particles and phi any measurable function with values in [0,1]. (1) The product of the mean incremental weights times the weighted mean of phi differs from the unnormalised target integral of phi by at most (2K+1) exp(2(K+1)b)/N in mean square. (2) The weighted mean of phi over the particles and weights returned by twisted_smc differs from the mean of phi under the normalised target by at most 4(2K+1) exp(2(K+1)b)/(Z^2 N) in mean square, and errors of size eps have probability at most that over eps^2. (3) A particle drawn by choice with the final weights, which is what conditional_sampler returns, has the target law up to the square root of that bound. (4) The guided proposals of the scripts need not meet the hypothesis: their incremental weights can be unbounded.", "quantifier": "all models, proposals and twisting functions with bounded incremental weights, all unbiased resampling schemes of small variance, numbers of particles and steps, keys, test functions", "why_tests_cant": "The rate is uniform over test functions and models and concerns expectations over all random draws; a finite run sees one realisation.", "anchors": ["fbs/samplers/smc.py:twisted_smc", "experiments/toy/gp_twisted.py:conditional_sampler", "experiments/imgs/inpainting_twisted.py:conditional_sampler", "experiments/imgs/supr_twisted.py:conditional_sampler"]}
{"id": "C85", "title": "Constructors of the image data sets; training and test images", "statement": "(1) MNIST and MNISTRestore hold every image of the array they were asked for (X or X_test) exactly once, in shape (n, 28, 28, 1), with n the number of images; an array of another size raises. (2) CIFAR10 holds every image once, but in the shape of the file: the reshape it performs is overwritten, so flat images stay flat although image_shape says (32, 32, 3). (3) CelebAHQ and CelebAHQRestore built twice with the same key, once with test=True and once with test=False, give disjoint sets that together are the file. (4) Built with different keys, as by training with seed 666 and testing with seed 996, every test image is in the training set with probability 29/30; on average 1000 (m-1000)/m of the 1000 test images are training images, and the two sets are disjoint only with probability 1 / C(m, 1000). (5) The attribute n of the CelebA training set is right exactly for a file of 30000 images. (6) Dataset.reshape gives at least two dimensions, keeps the number of entries and is idempotent.", "quantifier": "all files, keys, permutations, resolutions, tasks and shapes", "why_tests_cant": "The overlap of the two sets is a probability over all permutations of 30000 images, and the partition holds for every permutation.", "anchors": ["fbs/data/images.py:MNIST.__init__", "fbs/data/images.py:CIFAR10.__init__", "fbs/data/images.py:CelebAHQ.__init__", "fbs/data/images.py:MNISTRestore.__init__", "fbs/data/images.py:CelebAHQRestore.__init__", "fbs/data/base.py:Dataset.reshape", "experiments/imgs/train.py"]}
{"id": "C86", "title": "Refining the time grid: Euler-Maruyama converges in law", "statement": "Let the drift be affine in the state and the grid be jnp.linspace(0, T, nsteps + 1). (1) From a normal start the final state of euler_maruyama is normal, with the mean and covariance of the discrete moment equations. (2) As nsteps grows, its law converges weakly to the normal law whose moments solve the moment equations of the stochastic differential equation. (3) On the coefficients of a LinearSDE, from any point, the limit is the exact transition law of discretise_linear_sde. (4) On the reverse drift of the Gaussian process experiments (exact score), from any normal start N(mu, S), the limit is the data law N(m, C) corrected by the deviation of the start from the noised law at T, multiplied by F(T) C P(T)^-1; from the noised law itself the limit is the data law. (5) conditional_sampler of gp_csgm.py converges to a normal law with the posterior mean and the covariance G + F(T)^2 (G^2 - G P^-1 G), G the posterior covariance and P = cond_cov_ref; this is the posterior only if cond_cov_ref is the identity, which never happens with the coefficients of the experiment. (6) On the drift of make_gaussian_bw_sb, from the first marginal, the limit is the second marginal.", "quantifier": "all dimensions, horizons, SDE classes and parameters, means and positive definite covariances, keys, bounded continuous test functions", "why_tests_cant": "It is a limit statement about laws; a finite run sees one grid and one sample.", "anchors": ["fbs/sdes/simulators.py:euler_maruyama", "fbs/sdes/linear.py:make_linear_sde", "fbs/sdes/linear.py:make_gaussian_bw_sb", "experiments/toy/gp_csgm.py:conditional_sampler", "experiments/toy/gp_gibbs.py:reverse_drift"]}
{"id": "C87", "title": "How an error of the drift, the score or the start law changes the law of the samples", "statement": "Run euler_maruyama twice with the same grid and dispersion, with drifts b and b' and start laws mu and mu'. (1) The Kullback-Leibler divergence between the laws of the two whole paths equals KL(mu, mu') plus half the mean of the sum over steps of |t_{k+1} - t_k| |b - b'|^2 / g^2 along the first run. (2) For any test function of the path, or of the final state, with values in [0, 1] the two means differ by at most the square root of half that divergence. (3) From one start law the two path laws agree if and only if the mean cost vanishes. (4) For reverse_simulator with two scores s and s' the cost is half the mean of the sum of |t_{k+1} - t_k| g(T - t_k)^2 |s - s'|^2, so if the scores are uniformly within eps the bound is sqrt((KL(mu, mu') + eps^2/2 sum |t_{k+1} - t_k| g(T - t_k)^2) / 2). (5) End to end: for normal data N(m, C), any score uniformly within eps of the score of the noised data and any normal start N(mu, S), the mean of a continuous test function with values in [0, 1] under reverse_simulator comes, as the number of steps grows, within (1/2) sqrt(kl(m_T, P_T, mu, S) + eps^2 * integral of g^2 over [0, T]) of its mean under the data, kl being the function of fbs/utils.py.", "quantifier": "all dimensions, measurable drifts and scores, grids with distinct consecutive times (increasing or not), non-zero dispersions, start laws, keys, measurable test functions", "why_tests_cant": "The claim compares laws on path space for every pair of drifts; a test sees finitely many samples of finitely many drifts and cannot bound a total variation distance.", "anchors": ["fbs/sdes/simulators.py:euler_maruyama", "fbs/sdes/simulators.py:reverse_simulator", "fbs/utils.py:kl", "experiments/toy/gp_gibbs.py:reverse_drift"]}
{"id": "C88", "title": "How an error of the drift, the score or the start law changes the conditional laws that the samplers target", "statement": "Build the functions of the conditional samplers (transition_sampler, likelihood_logpdf, start law of u) once from a drift b and once from an approximation b'. Let v_1..v_K be the observations of a run with b. On average over these observations: (1) the conditional means of any function of the hidden path and of the observations with values in [0, 1] under the two smoothing laws differ by at most 2 sqrt(B/2), where B is KL of the start laws plus the mean of sum |t_{k+1} - t_k| |b - b'|^2 / (2 g^2) along the run; (2) so do the means under the two filtering laws at the last time; (3) bootstrap_filter with the functions of b' and enough particles gives averages whose mean distance to the exact conditional means under b is at most 2 sqrt(B/2) plus any given positive number; (4) for two scores uniformly within eps and one start law the bound is eps * sqrt(sum |t_{k+1} - t_k| g(T - t_k)^2).", "quantifier": "all dimensions of u and v, all orders of concatenation, measurable drifts and scores, uniform grids, dispersions that do not vanish on the grid, start laws, first observations, measurable test functions, unbiased resampling schemes of small variance, keys", "why_tests_cant": "The claim is about conditional laws averaged over a continuum of observation paths, for every pair of drifts and as the number of particles grows; no finite set of runs determines such laws.", "anchors": ["experiments/toy/gp_gibbs.py:transition_sampler", "experiments/toy/gp_gibbs.py:likelihood_logpdf", "experiments/toy/gp_filter.py:conditional_sampler", "fbs/samplers/smc.py:bootstrap_filter"]}
{"id": "C89", "title": "What the initial guess x0 of gibbs_init can and cannot change", "statement": "gibbs_init takes a guess x0 of the unobserved part. (1) The guess acts only through the noised observations: two guesses from which fwd_sampler draws the observed part of the path alike give the very same run, for every method, with and without marg_y. (2) If the observed entries move on their own under the forward drift (euler_maruyama), or the noising is that of a linear SDE, the guess has no effect at all; then the samples of the repeated filter have one law for all samplers of the guess. (3) If the forward drift mixes the two parts the guess does matter: a one-step model is given in which the laws of the returned state from the guesses 0 and 1 differ. (4) In general, if moving u from x to x' moves the forward drift by at most eps, then the probabilities of all events of the noised observations, and of the state returned by gibbs_init (methods filter and smoother, marg_y=False), change by at most eps/2 * sqrt(sum (t_{k+1} - t_k) / g(t_k)^2). (5) Where the Gibbs chain is uniformly ergodic (C82), the laws after nsamples iterations from any two guesses and any two ways to start differ by at most (1 - rate)^nsamples.", "quantifier": "all dimensions, orders of concatenation, forward drifts and dispersions (measurable; dispersion without zeros on the grid in (4)), grids, particle numbers, keys, guesses and samplers of guesses, methods, test functions with values in [0, 1], numbers of iterations", "why_tests_cant": "Equality of runs for all guesses, distances between laws on continuous spaces and their decay with the number of iterations are not decided by any finite set of runs; the experiment that plots the effect of x0 shows some images only.", "anchors": ["fbs/samplers/gibbs.py:gibbs_init", "experiments/sb_imgs/supr.py:fwd_sampler", "experiments/sb_imgs/supr.py:pf", "experiments/sb_imgs/supr.py:gibbs_init"]}
{"id": "C90", "title": "The guesses of the image experiment: range, interpolation and its half-pixel offset", "statement": "experiments/sb_imgs/supr.py starts from a random, a blank or an interpolated guess. (1) Enlarging an image of n x n pixels by an integer rate with jax.image.resize(method='linear') takes weighted means: the weights are non-negative, sum to one, and vanish for nodes a step or more away; so interp_x0_sampler does not raise for a mask that splits the image with n^2 observed pixels, and its entries stay between the bounds of the observed pixels. The entries of the random guess lie in [0, 1) and are independent and uniform there; the blank guess put together with the observed pixels of an image is the image with its unobserved pixels set to zero. (2) For an odd rate the enlarged image equals the observed values at the middle pixel of every block, which is where the mask of sr_random=False observes; for an even rate and n >= 2 this is false. (3) If the observed pixels come from an affine image, the interpolated guess is that image at every unobserved pixel between the centres of the outer blocks for an odd rate, and that image displaced by half a pixel in both directions for an even rate (the default is 4).", "quantifier": "all rates >= 1, sizes n >= 1, channels, images, masks that split the image (masks drawn without random shifts in (3)), keys, pixels", "why_tests_cant": "The claims hold for every real image, rate and size; the displacement for even rates is an identity in all coefficients of the image and does not show in the printed images.", "anchors": ["experiments/sb_imgs/supr.py:interp_x0_sampler", "experiments/sb_imgs/supr.py:random_x0_sampler", "fbs/data/images.py:_gen_supr_mask", "experiments/sb_imgs/supr.py:blank_x0_sampler"]}
{"id": "C91", "title": "Gibbs chains with inexact functions: distance from the posterior", "statement": "The invariance of the posterior pi0 under gibbs_kernel (C14, C15) and the convergence of the chain to it (C82) need the transition sampler and the likelihood to be the exact time reversal of the forward sampler. Suppose instead that, with x0 ~ pi0, the law of the reversed paths exceeds the path law of the model S that the functions describe by at most d and falls short of it by at most d', uniformly over events. Then (1) started from x0 ~ pi0, k iterations move the law of the state by at most k (d + d'), for any number of particles; (2) if the forward sampler satisfies the minorisation of C82 with rate r > 0, then from any start the law after k iterations is within (1 - r)^k + (d + d') sum_{j<k} (1 - r)^j of pi0, and every invariant probability of the iterations is within (d + d') / r of pi0; (3) if the transitions are exact and the log-likelihood is off by at most e everywhere, the hypothesis holds with d + d' = exp(K e) - exp(-K e) (K + 1 instead of K with explicit_final=True). All for both values of explicit_final, explicit_backward and marg_y, and with at least one particle.", "quantifier": "all models S, posteriors, observations, grids, numbers of particles and iterations, keys, starts, test functions with values in [0, 1]", "why_tests_cant": "The bounds are about laws of the chain over all random draws and for every pair of exact and inexact functions; a finite run shows neither the law nor its limit.", "anchors": ["fbs/samplers/gibbs.py:gibbs_kernel", "fbs/samplers/gibbs.py:gibbs_init"]}
{"id": "C92", "title": "Gibbs chain with a learnt score: error on average over the observation", "statement": "Let (x0, y0) have a joint law P. Suppose the law of the reversed forward paths exceeds the law of the Euler-Maruyama run of the reverse process with drift b (score s), from some start law, by at most d and falls short of it by at most d' (discretisation and reference). The scripts hand gibbs_kernel the transition sampler and likelihood of another drift b' (learnt score s'). Then after k iterations with explicit_final=False from x0, the joint law of the state and of y0 is within k (d + d' + 2 sqrt(B/2)) of P, where B is the mean cost of b - b' along the reverse run (Girsanov); for scores with root mean square error e along the reverse run, within k (d + d' + e sqrt(sum_k dt_k g_k^2)). It holds for any number of particles, any indices and every measurable test function of (x, y0) with values in [0, 1]. In the general form, for any functions gibbs_kernel may be given and for both values of explicit_backward and marg_y, the bound is k (d + d') when the reversed paths are (d, d')-close to the path law of the model the functions describe.", "quantifier": "all joint laws, forward samplers, drifts, scores, grids, numbers of particles and iterations, keys, test functions", "why_tests_cant": "The bound is about the joint law of the chain and of the observation, for every pair of exact and learnt scores; no finite run shows it.", "anchors": ["fbs/samplers/gibbs.py:gibbs_kernel", "experiments/toy/gp_gibbs.py", "experiments/sb/gibbs.py", "experiments/sb_imgs/supr.py:fwd_sampler"]}
{"id": "C93", "title": "Averages over the stored MCMC samples", "statement": "Let F be a measurable function with values in [0, 1]. The average of F over the samples stored by the Gibbs loops (one chain, or nchains chains mapped over split keys), after dropping any burn-in, estimates the expectation of F under the normalised target of the chain with mean square error at most (1 + r) / ((1 - r) nsamples) for one chain and (1 + r) / ((1 - r) nsamples nchains) + (r^burnin r / ((1 - r) nsamples))^2 for nchains chains, where 1 - r is the positive rate of C82; the bound holds from every start and every choice of indices. The same holds for the pMCMC loops with delta=None from every start with log_ell at most L, with the rate of C83: for any measurable resampling the averages estimate expectations under the extended target, and for exchangeable resampling with exact separable dynamics expectations under the posterior. Hence the averages converge in probability as nsamples grows. With stratified resampling and particle 0, as in the scripts, the limit can be wrong for every number of particles: in a model with two states the average exceeds the posterior probability 1/4 by at least 1/24 - eps with probability tending to one. In all four loops no draw reuses a key.", "quantifier": "all bounded test functions, starts, indices, keys, burn-ins, numbers of samples, chains and particles, all models meeting the exactness and minorisation conditions", "why_tests_cant": "tests/test_gibbs.py compares one long run with the true mean up to 5 per cent; how fast averages of dependent samples approach the target is a statement about the law of the whole run, for every start.", "anchors": ["tests/test_gibbs.py", "experiments/toy/gp_gibbs.py", "experiments/toy/gp_pmcmc.py", "experiments/sb/gibbs.py", "experiments/imgs/inpainting.py", "fbs/samplers/gibbs.py:gibbs_kernel", "fbs/samplers/smc.py:pmcmc_kernel"]}
{"id": "C94", "title": "Bias of the log-likelihood returned by the particle filters, and how often pMCMC accepts", "statement": "Let Z be the likelihood of the observed path in the model. The negative log-likelihood returned by `bootstrap_filter` is on average at least -log Z, and the log-likelihood of `pmcmc_filter_step` at most log Z; the inequality can be strict. If the log-likelihoods lie in [-b, b], the difference is at most (2K+1) exp(4Kb) / N, so the bias vanishes at rate 1/N. An error of the log-likelihood of eps or more has probability at most (2K+1) exp(2Kb) / (N (Z (1 - exp(-eps)))^2). From a state with log-likelihood l a step of `pmcmc_kernel` accepts at most as often as the step which computes the likelihood of the proposed path exactly, and less often by at most exp(-l) sqrt((2K+1) exp(2Kb) / N).", "quantifier": "all models with log-likelihoods bounded by b, all unbiased resampling schemes with small variance, all numbers of particles and steps, keys, paths, proposals and states", "why_tests_cant": "The tests look at the particles; nothing checks the returned log-likelihood, and the bias is a statement about its law for all models and particle numbers.", "anchors": ["fbs/samplers/smc.py:bootstrap_filter", "fbs/samplers/smc.py:pmcmc_filter_step", "fbs/samplers/smc.py:pmcmc_kernel"]}
{"id": "C95", "title": "Which resampling scheme has the smaller variance", "statement": "For normalised weights w and any real function c, the mean square deviation of the mean of c over the selected particles from the weighted mean is exactly Var_w(c)/N for the multinomial schemes of both modules, and never larger for `stratified` and `killing`. For equal weights `killing` makes no error. `systematic` can be worse: for every even N there are weights and a 0/1 function with error 1/16 against 3/(16N).", "quantifier": "all numbers of particles, normalised weights, real test functions and keys", "why_tests_cant": "The tests compare averages over a few weight vectors within a tolerance; a comparison of variances holds or fails over all weights and functions, and the systematic counterexample needs weights built for it.", "anchors": ["fbs/samplers/resampling.py:multinomial", "fbs/samplers/resampling.py:stratified", "fbs/samplers/resampling.py:systematic", "fbs/samplers/resampling.py:killing", "fbs/samplers/csmc/resamplings.py:multinomial"]}
{"id": "C96", "title": "The forced move moves more than a fresh draw of the index", "statement": "For normalised weights below the threshold of `force_move` the index it selects from k is i != k with probability w_i / max(1 - w_k, 1 - w_i) >= w_i. So for every distance which vanishes at k it covers at least the average distance of an independent draw from the weights, it leaves k strictly more often than with probability 1 - w_k, and started in the weights the squared jump of every function of the index is at least twice its variance (the correlation of successive indices is never positive). In the branch for a weight numerically one this fails.", "quantifier": "all numbers of particles, normalised weights below the threshold or equal to one, indices, distances, functions of the index and keys", "why_tests_cant": "The ordering concerns the law of the selected index for all weights and distances; sampled frequencies cannot separate it from equality, and the failing branch needs a weight above 1 - 1e-12.", "anchors": ["fbs/samplers/gibbs.py:force_move"]}
{"id": "C97", "title": "One call of the conditional samplers is close to an ideal draw", "statement": "With log potentials bounded by beta, for every reference trajectory and every indices of it, the trajectory returned by one call of `csmc_kernel` without the backward pass is within 2 (K+1) (1 + e^{2 beta (K+1)}) / N in total variation of an exact draw from the normalised target, so it converges to it as the number of particles grows. The state returned by one call of `gibbs_kernel` is within the same distance of the ideal Gibbs step which draws the paths as the kernel does and then the end of an exact draw of the trajectory given its start (explicit_final=False) or of the whole trajectory (explicit_final=True), with either setting of explicit_backward (with explicit_backward=True provided e^{2 beta} < (10^12 - 1)(N - 1), which keeps the weights off the degenerate branch of force_move).", "quantifier": "all state-space models with bounded log potentials, numbers of particles and steps, reference trajectories and indices, observation paths, keys, measurable functions bounded by one, killing and multinomial conditional resampling", "why_tests_cant": "The bound is on the law of one call, uniformly in the reference and the observations; a finite sample can neither certify a total variation distance nor the uniformity.", "anchors": ["fbs/samplers/csmc/csmc.py:csmc_kernel", "fbs/samplers/csmc/csmc.py:forward_pass", "fbs/samplers/gibbs.py:gibbs_kernel", "fbs/samplers/gibbs.py:force_move"]}
{"id": "C98", "title": "Test images and random numbers of the image experiments, with and without --start_from", "statement": "The six image scripts restore, for equal seeds, the same test image number k, whatever the method, the numbers of samples, particles and images and `--start_from`. Within one run no key is used for two samples, two images, or a sample and an image. A run resumed with `--start_from=s` is meant to give the images s, s+1, ... the samples that the uninterrupted run would have given them.", "quantifier": "all generators, seeds, data sets, samplers (one call per sample, or a chain with its start), numbers of samples and images, values of start_from", "why_tests_cant": "Tests do not run the scripts; that a resumed run reuses the random numbers of the first images shows only when two stored runs are compared, and sameness of the images for all settings is a statement about key derivations.", "anchors": ["experiments/imgs/inpainting.py", "experiments/imgs/supr.py", "experiments/imgs/inpainting_csgm.py", "experiments/imgs/supr_csgm.py", "experiments/imgs/inpainting_twisted.py", "experiments/imgs/supr_twisted.py"]}
{"id": "C99", "title": "What the super-resolution script of the Schrödinger bridge stores", "statement": "A run of experiments/sb_imgs/supr.py with y0_id = k restores the test image that the image scripts started with the same seed and data call number k. For each of its starts (random, blank, interp) it leaves a file with exactly nsamples restorations made from that start: nothing of the zeros of the shared array or of the previous start is left in it. Within a run no key is used twice. The stored first image of a chain is meant to be the one the stored chain began with, and runs for different images are meant to use different random numbers.", "quantifier": "all generators, seeds, data sets, networks, numbers of samples and starts, filters and chains, values of y0_id", "why_tests_cant": "Tests do not run the script; stale entries in the shared array, an overwritten file or random numbers shared between runs do not raise any error, and look like ordinary images.", "anchors": ["experiments/sb_imgs/supr.py", "experiments/tabulators/plot_sb_imgs_anime.py", "experiments/bashes/sb_imgs.sh"]}
{"id": "C100", "title": "The scripts that make the data files", "statement": "make_cifar10.py turns five batches and a test batch as distributed (10000 images of 3072 bytes, three planes of 32 x 32) into arrays of 50000 and 10000 images of shape (32, 32, 3): the value at (r, c, ch) of image 10000 i + j is byte 1024 ch + 32 r + c of image j of batch i + 1, divided by 255. The values are in [0, 1], equal files come from equal batches, and CIFAR10 reads the file as 32 x 32 x 3 images, each once. A first batch with another number of images than 10000 stops the script unless the number is one. celebaHQ/convert.py gives values in [0, 1] in both files; the pixels of the reduced images are weighted means (1/8, 3/8, 3/8, 1/8 in each direction away from the border) centred on the 2 x 2 blocks, and reduction commutes with mirroring.", "quantifier": "all contents of the batches and images; image sizes 2m for all m > 0 in the statements about the reduction", "why_tests_cant": "The scripts are run once on data that is not in the repository; a wrong order of planes, rows or batches raises no error and a test would have to know each of the 60000 images.", "anchors": ["experiments/datasets/make_cifar10.py", "experiments/datasets/celebaHQ/convert.py", "fbs/data/images.py"]}
{"id": "C101", "title": "The autocorrelation curves", "statement": "For samples of a chain of any length N the autocorrelation of a variable is nan exactly if the variable never changes; otherwise it is 1 at lag 0, at most N/(N-k) in size at lag k (at most 1 for the biased estimate), and it is unchanged by a change of units and by reading the chain backwards. Averaged over all orders of the samples it is -1/(N-1) at every lag 0 < k < N (-(N-k)/(N(N-1)) for the biased estimate), not 0. The image plot shows at each lag the smallest autocorrelation of a variable that changes, negative values counted as 0; it is nan only if no variable changes. The toy plot shows at each lag the largest mean over the chains, and one variable that never changes in one chain makes it nan at every lag. The curves are those of the best and of the worst variable.", "quantifier": "all lengths, numbers of variables and chains, lags and samples; biased and unbiased estimates", "why_tests_cant": "The bounds and the average over all N! orders are statements about all chains; a plot of a sample of chains cannot show that each curve belongs to a single variable.", "anchors": ["experiments/tabulators/plot_autocorrs_imgs.py:ac_fn", "experiments/tabulators/plot_autocorrs_toy.py:autocorr_over_chains"]}
{"id": "C102", "title": "bures_dist is the squared Wasserstein distance", "statement": "For positive semidefinite covariances `bures_dist(m0, cov0, m1, cov1)` is the least value of E|X - Y|^2 over all couplings of X ~ N(m0, cov0) and Y ~ N(m1, cov1): the square of the 2-Wasserstein distance named in the docstring. For any two random vectors with these means and covariances, normal or not, E|X - Y|^2 is at least this value. Its root satisfies the triangle inequality, the value itself does not. The expectations of an l-Lipschitz function under the two normal laws differ by at most l times the root.", "quantifier": "every dimension, all means, all positive semidefinite covariances (singular ones included), all couplings, all Lipschitz functions", "why_tests_cant": "The minimum runs over all joint laws; the test compares the value with 0 at equal arguments.", "anchors": ["fbs/utils.py:bures_dist", "fbs/utils.py:sqrtm", "experiments/tabulators/tabulate_toy.py", "experiments/tabulators/plot_sb.py"]}
{"id": "C103", "title": "The conditional samplers are reversible, with non-negative and decreasing autocovariances", "statement": "`csmc_kernel` with ancestor tracing is reversible with respect to the smoothing distribution (uniform indices): the pair (reference, output) is exchangeable; and it is a positive operator. `gibbs_kernel` is reversible with respect to the conditional law it leaves invariant, for both values of `explicit_backward` and of `explicit_final`. Without `explicit_backward` it is positive: started in its target, the autocovariance of any square-integrable function is non-negative at every lag, non-increasing and convex in the lag, and the second moment of the sum of a function over the stored samples of a chain is at least that of as many independent draws. With `explicit_backward` the even-lag autocovariances are non-negative and non-increasing, and each odd lag is at most the even one before it.", "quantifier": "all numbers of particles, samples, lags and time steps, all state spaces and models whose backward law factorises, all square-integrable functions, all keys and reference indices", "why_tests_cant": "Reversibility and positivity are statements about the joint law of old and new state for all functions; a run shows estimated autocorrelations with noise of the order of the effect.", "anchors": ["fbs/samplers/csmc/csmc.py:csmc_kernel", "fbs/samplers/gibbs.py:gibbs_kernel", "fbs/samplers/gibbs.py:force_move", "experiments/sb/gibbs.py"]}
{"id": "C104", "title": "The pseudo-marginal chain is reversible, with non-negative, decreasing, convex autocovariances", "statement": "`pmcmc_kernel` is reversible with respect to the extended target (path drawn from its law, weighted by the likelihood estimate, with the particle returned by that filter run), for independent proposals (`delta=None`) and for the preconditioned Crank–Nicolson proposals with any `delta >= 0`. In both cases it is a positive operator. So for the chain started in that target, and any square-integrable function of particle, log-likelihood and path, the autocovariance is non-negative at every lag, non-increasing and convex in the lag; and the second moment of the sum of a function over the stored particles is at least that of as many independent draws.", "quantifier": "all numbers of particles, samples, lags and observation times, all measurable resampling schemes, all state spaces and models that implement a jointly measurable state space, all delta >= 0 with a Gaussian path law whose mean is the one supplied, all square-integrable functions, all keys", "why_tests_cant": "Reversibility and positivity concern the joint law of old and new state for all functions; a run gives estimated autocorrelations whose noise is of the size of the effect.", "anchors": ["fbs/samplers/smc.py:pmcmc_kernel", "fbs/samplers/smc.py:pcn_proposal", "experiments/toy/gp_pmcmc.py"]}
{"id": "C105", "title": "The pseudo-marginal chain never mixes better than the chain with the exact likelihood, and approaches it as the number of particles grows", "statement": "Compare the stationary chain of `pmcmc_kernel` with the ideal chain that proposes in the same way but accepts with the exact likelihoods of the model; both have the same target law of the path. For any price on moves the code's chain pays at most as much per step; for functions of the path the expected product of the values at times 0 and 1 is at least as large; for every r < 1 the discounted sum over all lags of these products is at least as large; and so is the sum of the autocovariances, which gives the variance of long averages. For prices and functions bounded by one the differences at one step are at most 2 sqrt((2K+1) e^(2Kb) / N) and half of that, where K is the number of steps of the filter, e^b bounds the likelihood factors and N is the number of particles.", "quantifier": "all numbers of particles and observation times, all state spaces and models that implement a jointly measurable state space with bounded likelihood factors, all unbiased measurable resampling schemes (with the variance bound for the upper bounds), independent proposals and preconditioned Crank–Nicolson proposals with any delta >= 0, all square-integrable functions of the path, all keys", "why_tests_cant": "It compares the code with a chain nobody can run, since the exact likelihood is unknown, for all functions and all lags at once; autocorrelations estimated from runs are too noisy to order the two.", "anchors": ["fbs/samplers/smc.py:pmcmc_kernel", "fbs/samplers/smc.py:pcn_proposal", "fbs/samplers/smc.py:bootstrap_filter", "experiments/toy/gp_pmcmc.py"]}
{"id": "C106", "title": "The pseudo-marginal chain loses at most the largest ratio of estimated to exact likelihood", "statement": "Suppose that the estimate of the likelihood of a path used by `pmcmc_kernel` exceeds the exact likelihood at most by a factor W, almost surely. Then in stationarity the ideal chain with the exact likelihoods moves (for any price on moves) at most W times as much per step as the code's chain; and for every square-integrable function of the path the sum of the autocovariances of the code's chain, which gives the variance of long averages, is at most W times that of the ideal chain. If the likelihood factors lie between e^a and e^b, then W = e^(K (b - a)) qualifies for a path of K steps, whatever the number of particles.", "quantifier": "all numbers of particles and observation times, all state spaces and models that implement a jointly measurable state space with likelihood factors bounded above, all unbiased measurable resampling schemes, independent proposals and preconditioned Crank–Nicolson proposals with any delta >= 0, all square-integrable functions of the path, all keys; the value of W for likelihood factors bounded on both sides", "why_tests_cant": "It bounds the asymptotic variance, an infinite sum over lags, against that of a chain nobody can run, for all functions at once.", "anchors": ["fbs/samplers/smc.py:pmcmc_kernel", "fbs/samplers/smc.py:pcn_proposal", "fbs/samplers/smc.py:bootstrap_filter", "experiments/toy/gp_pmcmc.py"]}
{"id": "C107", "title": "The Gibbs chain against the ideal Gibbs chain", "statement": "Compare `gibbs_kernel` (explicit_backward=False) with the ideal Gibbs step, which draws the paths as the kernel does and then, in place of the particle filter, the end of an exact draw of the trajectory (given its start if explicit_final=False, start included if explicit_final=True). In stationarity the old and the new state of the code are at least as correlated as those of the ideal step, for every function of the state. With log potentials bounded by beta, for every square-integrable function the sum of the autocovariances of the code's chain, which gives the variance of long averages, is at least that of the ideal chain, and 1 - delta times it is at most that of the ideal chain, with delta = 2 (K+1) (1 + e^{2 beta (K+1)}) / N. So the price of the particle approximation vanishes as the number N of particles grows.", "quantifier": "all numbers of particles and steps, all jointly measurable state spaces with bounded log potentials and models with the exact backward factorisation (or the exact reference law) and paths whose law is a kernel in the state, both settings of explicit_final, killing conditional resampling, all square-integrable functions of the state, all keys and indices of the reference", "why_tests_cant": "It bounds an infinite sum over lags against that of a chain nobody can run, on both sides, for all functions at once.", "anchors": ["fbs/samplers/gibbs.py:gibbs_kernel", "fbs/samplers/csmc/csmc.py:forward_pass", "fbs/samplers/csmc/resamplings.py:killing", "experiments/toy/gp_gibbs.py"]}
{"id": "C108", "title": "The forced move never makes the Gibbs chain slower", "statement": "Away from the degenerate branch of `force_move` (a weight numerically one), an index drawn from the weights and the index selected from it by `force_move` are never more correlated than two independent draws, for every non-negative function of the index. So in stationarity the old and the new state of `gibbs_kernel` are no more correlated with explicit_backward=True than with explicit_backward=False, for every function of the state; and, over the whole run, the discounted sum of the lag-k products, sum_k r^k E[f(X_0) f(X_k)], is never larger with explicit_backward=True, for every r < 1 and every square-integrable f.", "quantifier": "all weights off the degenerate branch and functions of the index; all numbers of particles and steps, all jointly measurable state spaces whose normalised weights stay off the degenerate branch, models with the exact backward factorisation (or the exact reference law) and paths whose law is a kernel in the state, both settings of explicit_final, all square-integrable functions of the state, all discounts r < 1, all keys and indices of the reference", "why_tests_cant": "It orders two chains by an infinite sum over lags for all functions at once; simulation gives noisy estimates for single functions.", "anchors": ["fbs/samplers/gibbs.py:force_move", "fbs/samplers/gibbs.py:gibbs_kernel", "experiments/toy/gp_gibbs.py"]}
{"id": "C109", "title": "Repeated csmc_kernel calls mix almost like independent draws", "statement": "Feed csmc_kernel (backward=False, killing or multinomial conditional resampling) with its own output again and again, the observations being fixed, and start it with a trajectory from the smoothing distribution. For every square-integrable non-negative function f of the trajectory, the autocovariances are non-negative, and the lag-k products are non-increasing and convex in k. If the log potentials are bounded by β, the sum of the autocovariances over all lags is at most 1/(1-δ) times the variance of f, δ = 2(K+1)(1+exp(2β(K+1)))/N; so an average over the chain has asymptotically at most (1+δ)/(1-δ) times the variance of an average over as many independent draws.", "quantifier": "all numbers of particles N and steps K, all models with independent particle draws, all observations and times, both conditional resampling schemes, all square-integrable functions of the whole trajectory, all keys", "why_tests_cant": "It bounds an infinite sum over lags for all functions of the trajectory; a run gives a noisy estimate of a few lags of a single function, and positivity and monotonicity of the autocovariances cannot be told from noise.", "anchors": ["fbs/samplers/csmc/csmc.py:csmc_kernel", "fbs/samplers/csmc/resamplings.py:killing", "fbs/samplers/csmc/resamplings.py:multinomial", "tests/test_csmc.py"]}
{"id": "C110", "title": "The Gibbs test of csmc_kernel keeps the prior only if observations lag one state behind", "statement": "Draw a trajectory of a hidden Markov model from the prior, then alternate between drawing observations given the trajectory and drawing a trajectory given the observations by one call of csmc_kernel (backward=False). If observation k is drawn at state k-1 (and observation 0 at state 0), which is how csmc_kernel weights its particles, the trajectory keeps the prior law after any number of rounds, for any number of particles and any first indices. If every observation is drawn at its own state, as tests/test_csmc.py does, the prior is in general not kept: for two independent throws of a coin reported with errors, one round with a million particles changes the law of the first throw; and with the Gaussian chain, the tanh emission and the unit noise of the test, two times and any sufficiently large number of particles, one round changes the law of the first state. Every draw of the loop uses its own key.", "quantifier": "all hidden Markov models with an emission density, all numbers of particles, steps and rounds, both conditional resampling schemes, all first indices, all functions of the trajectory, all keys; for the failure: the coin, and the model of the test with any sigma, ell and time step; all keys and all first indices", "why_tests_cant": "The test compares means and covariances of one run with tolerances of 0.1 and 0.2; it neither sees a small bias of its own loop nor can it show that the law is kept for all functions and models.", "anchors": ["tests/test_csmc.py", "fbs/samplers/csmc/csmc.py:csmc_kernel", "fbs/samplers/csmc/csmc.py:forward_pass"]}
{"id": "C111", "title": "The prior sampler of the CSMC test agrees with its chain, and the lagged loop keeps it", "statement": "In tests/test_csmc.py discretise_lti_sde gives F = exp(-dt/ell) and Q = sigma^2 (1 - F^2). On an equispaced grid the matrix gp_cov(ts, ts) is positive definite, so cholesky is called within its contract, and gp_sampler draws a trajectory with exactly the law of the Markov chain that init_sampler and transition_sampler of the test simulate, which is the normal law with mean zero and covariance gp_cov(ts, ts). Started at gp_sampler and run with the functions of the test, the Gibbs loop has this law after every number of rounds if sampler_ys_cond_xs is called on the trajectory shifted by one step.", "quantifier": "all numbers of steps, dt > 0, ell > 0, sigma nonzero, R > 0, all particle numbers, numbers of rounds, first indices, keys and all measurable functions of the trajectory", "why_tests_cant": "The test uses one grid, one seed and compares sample moments with tolerances of 0.1 and 0.2.", "anchors": ["tests/test_csmc.py", "fbs/utils.py:discretise_lti_sde", "fbs/samplers/csmc/csmc.py:csmc_kernel"]}
{"id": "C112", "title": "The rows recorded by the CSMC test", "statement": "The program of tests/test_csmc.py (trajectory from gp_sampler, then niters rounds of sampler_ys_cond_xs and csmc_kernel, each recorded) draws from every key at most once, all keys being derived from the one it starts with, and records exactly niters rows, for backward=False and backward=True. transition_logpdf is the log density of transition_sampler. With backward=False: if sampler_ys_cond_xs were called on the trajectory shifted by one step, every recorded row would have exactly the law N(0, gp_cov(ts, ts)) the test checks for; with the call as it is, two times and any sufficiently large number of particles, the first recorded row does not have this law.", "quantifier": "all keys, numbers of iterations, particles and steps, sigma nonzero, ell > 0, dt > 0, R > 0, all measurable functions of a row; for the failure: two times, R = 1, all large numbers of particles, all keys", "why_tests_cant": "The test runs one key and compares averages over one chain with tolerances of 0.1 and 0.2, which neither shows the law of a row nor reveals a bias below the tolerance.", "anchors": ["tests/test_csmc.py", "fbs/samplers/csmc/csmc.py:csmc_kernel"]}
