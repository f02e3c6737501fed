# Design of the fbs model

Subject: the Python/JAX library `fbs` in `/repo` (forward-backward bridging conditional diffusion
samplers). The model is Lean 4 under `lean/Verif`. `properties.jsonl` lists the properties,
`MANIFEST.json` the theorem(s) for each of them, `seeded/LOG.jsonl` the mutation attempts.

## 1. How the code is modelled

* **Numbers.** `float32/float64` values are modelled by the real numbers. Rounding, overflow, NaN and
  infinities are *not* modelled. Where the code can reach `log 0`, `0/0`, or an out-of-range gather
  the model either has an explicit error/guard or the theorem carries the hypothesis that excludes it.
* **Arrays.** The particle axis is `Fin N → _`; the time axis is a `List`. JAX primitives
  (`cumsum`, `searchsorted`, `clip`, `roll`, `.at[].set`, `take`, `lax.scan`, `choice`, `randint`) are
  small total Lean functions in `Verif/Base/Jax.lean`; this file is part of the trusted base as it
  transcribes documented JAX 0.4.26 behaviour.
* **Randomness.** A program that consumes keys is a value of the free monad `Rand α`: either `pure a`
  or `draw key S μ cont` meaning "sample from the probability measure `μ` (values always in the set
  `S`) with this key and continue". Keys are symbolic split paths. Two readings are used:
  - `Runs p ks a` : some sequence of admissible draws makes `p` return `a` consuming keys `ks`
    (properties that must hold for every draw, and key discipline);
  - `E p f` : the expectation of `f` of the result, an iterated Lebesgue integral over the draws
    (laws, unbiasedness, invariance).
  The trusted idealisation is that draws made with keys that are not derived from one another
  are independent; theorem C24 proves that this is the situation in each sampler.
* **User callables** (transition samplers, likelihoods, networks, drifts) are universally quantified
  arguments. Samplers are Markov kernels on an arbitrary measurable space.
* **Errors** (`raise`, failed asserts, shape errors) are `Except`/`Option` values.
* **Autodiff** (`jax.grad`) is the mathematical derivative.
* **Linear algebra** (`expm`, `eigh`, `cholesky`, `solve`) is exact. `eigh` and `cho_factor` are
  parameters of the model; theorems assume their documented defining equation (`Spec.IsEigh`,
  `Spec.IsChol`), which is shown to be satisfiable.

## 2. Trusted base

1. Lean 4.33 kernel and the axioms `propext`, `Classical.choice`, `Quot.sound` (checked by
   `#print axioms`); no `sorry`, no own axioms, no `native_decide`, no `bv_decide`.
2. The transcription of the Python source to the definitions in `Verif/Model` (each definition cites
   file and lines) and of library primitives: `Verif/Base/Jax.lean` (array primitives, `uniform`, `choice`,
   `randint`), `Verif/Base/Normal.lean` (`normal`), and, next to their only use, `norm.logpdf`
   (`Linear.normLogpdf`, `Crescent.normLogpdf`), `permutation`/`choice(replace=False)`/`array_split`
   (`Data`), `linspace` (`Simulators`), `sort` and bounded `uniform` (`Losses`), `setdiff1d`, broadcasting and
   scatter (`Restore`), `image.resize(method='nearest')` (`Images.nearest`), the size rule of convolutions
   (`Unet.convDim`), `einops` patterns (`Nn.pixelShuffle`), `trapezoid` (`Crescent`).
3. The idealisations of section 1 (exact reals, ideal independent PRNG, exact autodiff/linear algebra).

Not modelled: jit/vmap/compilation, dtype promotion, devices, plotting and IO, the numerical
content of neural network layers (only their shapes), optax, training scripts, tabulators.

## 3. Status per property

The exact theorem names are in `MANIFEST.json`; theorems live in `lean/Verif/Props`, specifications in
`lean/Verif/Spec` (or at the top of the property file), auxiliary lemmas in `lean/Verif/Lemmas`.
"Law" theorems are statements about `E`, "all draws" theorems are statements about `Runs`/`Returns`.

| id | modelled | how proved / what is missing |
|----|----------|-----------|
| C01 | csmc `killing` down to its uniforms | finite law computed, Bayes on the cyclic shift |
| C02 | resampling schemes down to uniforms | interval lengths, sums of laws |
| C03 | systematic/stratified | counting comb points in an interval; the draw `u = 0` excluded (see C04) |
| C04 | all schemes, `choice` via searchsorted | order/cumsum lemmas; witness that the admissible draw `u = 0` can select a zero weight |
| C05 | killing | case split on the killed mask, all draws |
| C06 | conditional schemes | all draws for pinning; law of conditional multinomial |
| C07-C09 | forward pass and backward passes | induction over the scan, all draws |
| C10 | `csmc_kernel(backward=False)` | extended target identity by induction over the scan, general measurable state space |
| C11 | `csmc_kernel(backward=True)` | **false of the code** (backward weights omit the likelihood of `v_{k+1}`): counterexample; invariance for every model and exact scheme if the supplied `transition_logpdf` accounts for that likelihood, in particular if the likelihood is constant in the previous state |
| C12 | `force_move` | reversibility below the threshold, 1e-12 bound and counterexample in the numerically-one branch |
| C13 | `force_move` alpha | **false in general**: counterexample; bound and exact cases proved |
| C14 | `gibbs_kernel` | C10 with the conditional target and the backward factorisation |
| C15 | `gibbs_kernel(explicit_final=True)` | **false of the code**: counterexample; exact when the terminal law carries the extra factor |
| C16 | `gibbs_kernel`/`gibbs_init` | all draws, histories; two clauses false (witnessed) |
| C17, C18 | filters | backward induction on the scan with unbiased resampling |
| C19 | `bootstrap_filter` | induction; the `log` flag is ignored (witnessed) |
| C20 | `pmcmc_kernel` | all draws, induction on history; exact acceptance probability |
| C21 | `pmcmc_kernel` | detailed balance of the pseudo-marginal chain; counterexample for a fixed index with stratified resampling |
| C22 | `pcn_proposal` | characteristic functions on any separable Banach space |
| C23 | `twisted_smc` | telescoping with unbiased resampling |
| C24, C25 | symbolic keys | prefix-independence by induction; the smoother reuses its parent key (witnessed) |
| C26-C30 | linear SDE classes | real analysis |
| C31 | `simulate_cond_forward` | Gaussian convolution, induction over the grid; `t0=None` raises (witnessed) |
| C32-C35 | simulators | list induction, calculus; decreasing grids with sub-steps overshoot (witnessed) |
| C36 | `make_gaussian_bw_sb` | matrix algebra and derivatives |
| C37 | ipf losses | list induction |
| C38, C52-C54 | training losses | conditional expectations: the score of the noised law minimises the expected loss of the program |
| C39 | OU loss against general loss | equal for `t0 = 0`; **false** otherwise (counterexamples) |
| C40-C42 | utils | matrix exponential calculus, spectral theorem, Gaussian integrals; `kl` lacks the factor 1/2 (counterexample) |
| C43-C45, C51 | data | list/finset combinatorics; counterexamples for rates that do not divide the image and too large rectangles |
| C46 | Crescent | calculus, Gaussian law of the sampler; counterexamples for `log_prior_pdf` and `posterior` |
| C47-C50 | nn helpers | trigonometry, index arithmetic, shape induction, history induction |
| C55 | backward smoother | law by induction over the scan |
| C56 | sorted multinomial | exponential spacings are order statistics: unit-determinant partial sums, scaling, permutation cells of the cube |
| C57 | marg_y bridge | end points for every draw; an exact bridge given separable noising leaves the joint law of the reversed paths unchanged, so C14 applies |
| C58 | reference indices | the law of the returned states does not depend on `bs_star`; every call and the whole Gibbs loop leave the target invariant from any indices |
| C59 | experiment samplers | transition and likelihood functions of the scripts: densities, and filter and conditional SMC reproduce the joint Euler–Maruyama path law |
| C60 | GP regression | kernel matrix positive definite; simulated data are `N(0, joint_cov)`; `gp_mean`, `gp_cov` are the posterior |
| C61 | GP score | noised law is `N(forward_m_cov)`, `score` is the gradient of its log density, `reverse_drift` drives the reversed moments |
| C62 | reference samplers | conditional mean and covariance right; drawn covariance is `LᵀL`, exact iff diagonal, never in the experiments (partial) |
| C63 | twisted experiments | weighted draw has the law of the (one step late) Euler-Maruyama chain weighted by the twisting at the end; guidance formula |
| C64 | conditional score models | moments and drift are those of the noised posterior; the start has the squared covariance (partial); law of the image samplers |
| C65 | attention | averages, equivariance, batches, normalisation |
| C66 | corruption | standardise, conv, corrupt, sampler, enumerate_subset, restoration pairs |
| C67 | Kalman filter | what `gp_kf.py` computes, and that it is not exact |
| C68 | Filter draws | draws of the filter experiments (particle 0) |
| C69 | Chain starts | starts of the pseudo-marginal chains |
| C70 | image samplers | mask layout is a pixel permutation; reduces to the toy laws (C59) |
| C71 | small networks | shape calculus with broadcasting; exact acceptance conditions |
| C72 | key discipline of the rest | `Props/ExpKeys`: `C72_*` |
| C73 | Gaussian Schrödinger bridge is optimal | `Props/SbOptimal`: divergence identity of `Lemmas/Schroedinger` plus the explicit potentials |
| C74 | reverse process of the Gaussian bridge | `Model/SbGp`, `Props/SbReverse`: reverse drift = drift of the bridge with the ends exchanged; score = gradient of the log marginal density; reference covariance a.s. positive definite (`Lemmas/PolyZero`); filter exact for the exchanged bridge |
| C75 | what the IPF losses learn | `Props/DsbOptimal`: the reversed drift is the unique minimiser; exact excess of every other network (`Score.population_pythagoras`) |
| C76 | training scripts | epochs and batches, key discipline of the training loops, random grids, what the losses of the Schrödinger bridge script learn, times at which the simulators evaluate the networks (`experiments/imgs/train.py`, `experiments/sb_imgs/train.py`) |
| C77 | error tables, toy | `Model/Tables`, `Props/Tables`: unbiased estimators, vanishing errors, noise floor of the Bures error, averages over chains and the dropped between-chain part |
| C78 | error tables, images | `Model/Tables`, `Props/ImgTables`: peak signal-to-noise ratio, clipping, layout of the tensor (transposed) |
| C79 | filter accuracy | rate 1/N with explicit constants for the likelihood estimate, the particle mean and a uniformly drawn particle, both filters; systematic resampling excluded with a witness |
| C80 | smoother target | with the likelihood in the backward weights the filter and smoother estimate smoothing integrals without bias; the code leaves it out and is biased (witness for every N); `gibbs_init`: values, law, keys |
| C81 | time reversal | the noised densities solve the forward Fokker-Planck equation, the reverse drifts with the score (or a network of minimal expected loss) solve the reversed one, with the right laws at both ends |
| C82 | uniform ergodicity | csmc_kernel and gibbs_kernel are minorised, so the Gibbs loop forgets its start at a geometric rate and converges to its target; it is stuck with one particle or a noiseless state |
| C83 | pseudo-marginal ergodicity | with delta=None the chain of pmcmc_kernel forgets its start at the rate likelihood/exp(L), L bounding the stored and possible log_ell; the rate does not improve with more particles |
| C84 | accuracy of twisted SMC | weighted means of twisted_smc are within O(1/N) in mean square of the target, and the sample of conditional_sampler within O(1/sqrt N) in law, if the incremental weights are bounded |
| C85 | image data sets | MNIST, CIFAR10 and CelebA-HQ constructors keep every image once; CelebA training and test sets are disjoint for one key, and overlap in 29/30 of the test images for two |
| C86 | time discretisation | Euler-Maruyama with an affine drift converges in law to the differential equation as the grid is refined; limits of the noising, reverse, conditional and bridge samplers |
| C87 | error propagation | exact divergence between two Euler-Maruyama path laws; how an error of the score and of the start law bounds the error of the samples, up to an end-to-end bound for normal data |
| C88 | conditional error propagation | how an error of the score moves the smoothing and filtering laws that the conditional samplers target, and the particle filter run with it |
| C89 | the initial guess | what `x0` of `gibbs_init` can change: nothing for separable noising, a bounded amount in general, and the chain forgets it |
| C90 | the guesses of the image experiment | interpolation weights, range of the guesses, exactness for odd rates and the half-pixel displacement for even rates |
| C91 | Gibbs chains with inexact functions | drift of the law per iteration, distance of the limit from the posterior, errors of the likelihood |
| C92 | Gibbs chain with a learnt score | joint law of state and observation after k iterations, Girsanov bound in the mean square error of the score |
| C93 | averages over stored samples | mean square error of order 1 / nsamples (1 / (nsamples nchains) to leading order) from any start; the bias shrinks geometrically with the burn-in; consistency; fresh keys |
| C94 | bias of the log-likelihood | on average too small (strictly in an example), by at most C/N; consistent in probability; acceptance rate at most that of the exact chain and within C/√N of it |
| C95 | variance of the resampling schemes | multinomial exactly `Var_w(c)/N`; stratified and killing never larger; systematic larger by the factor `N/3` in an example for every even `N` |
| C96 | forced move against a fresh index | larger jumps for every distance, strictly more moves, no positive correlation; fails in the degenerate branch |
| C97 | closeness to the ideal draw | one call of csmc_kernel / gibbs_kernel is within 2(K+1)(1+e^{2β(K+1)})/N in total variation of the exact draw, uniformly in the reference |
| C98 | resuming the image scripts | same test images for all settings, fresh keys within a run; a resumed run repeats the random numbers of the first images (counterexample), its law alone is right |
| C99 | files of the SB script | right image, complete arrays for each start, fresh keys within a run; the stored start of the chain is that of the last start (counterexample), runs for different images share random numbers |
| C100 | data files | CIFAR-10 conversion entry by entry, range, losslessness, reader; CelebA-HQ range, weights, position and mirror symmetry of the reduction |
| C101 | autocorrelations | when defined, range, invariances, mean over random orders, the plotted curves as envelopes; not the curve of one variable |
| C102 | Wasserstein | bures_dist is the least mean squared distance over couplings; Gelbrich bound; triangle inequality for the root only; bound on expectations |
| C103 | Reversibility | conditional SMC and Gibbs kernels reversible and (without the forced move) positive; autocovariances non-negative, decreasing, convex; chain averages no better than independent ones |
| C104 | Reversible pMCMC | pseudo-marginal kernel reversible and positive for both proposals; autocovariances non-negative, decreasing, convex; stored averages no better than independent ones |
| C105 | Exact likelihood order | pMCMC moves at most as often as the chain with the exact likelihood, has at least its asymptotic variance, and differs by O(1/sqrt N) per step |
| C106 | Exact likelihood bound | if estimates exceed the likelihood at most W-fold, the exact chain moves at most W times as often and pMCMC has at most W times its asymptotic variance; W = e^(K (b - a)) for bounded factors |
| C107 | Ideal Gibbs chain | the Gibbs chain has at least the asymptotic variance of the chain of exact conditional draws, and at most 1/(1 - delta) times it with delta = 2 (K+1) (1 + e^{2 beta (K+1)}) / N |
| C108 | Forced move, whole chain | with explicit_backward=True the stationary correlation of old and new state, and every discounted sum of lag products, is at most that with explicit_backward=False |
| C109 | Repeated conditional SMC | autocovariances are non-negative, non-increasing and convex; their sum is at most 1/(1-δ) times the variance |
| C110 | Gibbs test of csmc_kernel | the prior is kept when observation k is drawn at state k-1; counterexamples (a coin, the model of the test) when it is drawn at state k |
| C111 | prior of the CSMC test | gp_sampler has the law of the chain simulated by the test's transition functions; the lagged loop keeps it |
| C112 | rows recorded by the CSMC test | fresh keys, one row per iteration; law of every row with late observations; failure with the observations of the test |

Hypotheses of the law theorems about user callables: `Spec.Implements`, `SmcImplements`, `TwistedImplements`,
`PmcmcImplements` say that a sampler draws from the stated kernel and that a log density is measurable; they do not
mention the code. `BackwardExact`/`ReferenceExact` say that the joint law of the noised path factorises backwards.

## 4. Findings

Statements of `properties.jsonl` that are false of the code (each with a Lean witness unless marked "read"):

* `csmc.py` backward sampling leaves out the likelihood of the next observation, so `backward=True` is not invariant
  (C11).
* `force_move`: the branch for a weight within 1e-12 of one is not invariant (C12); the reported acceptance value is only
  an upper bound (C13).
* `gibbs_kernel(explicit_final=True)`: the initial weight has exchanged observations and is counted twice (C15); the last
  index can equal `nparticles` (C16).
* `gibbs_init(method='smoother')` returns an `x0` that is not the end of its trajectory (C16).
* `bootstrap_filter` ignores its `log` flag (C19).
* `pmcmc_kernel` with stratified (or another order preserving) resampling and a fixed `which_u` is biased (C21).
* `bootstrap_backward_smoother` draws the last state with the parent key of the other draws (C25).
* `simulate_cond_forward(keep_path=False)` fails with the default `t0=None` (C31) and misbroadcasts a vector `ts` (C31_times_raises, C31_times_square, C31_times_wrong, C31_times_column).
* `euler_maruyama` on a decreasing grid with more than one sub-step evaluates the coefficients at wrong times (C33); this
  is how `experiments/sb_imgs/train.py:218` calls it; the network is evaluated at `-T/1280` (C76).
* `doob_bridge_simulator` on a grid with one time overwrites `x0` (C35).
* `make_ou_score_matching_loss` is wrong for `t0 != 0`; the branches `'ipf'` and `'ipf-score'` of the memory-saving loss
  have inconsistent shapes (C39).
* `kl` returns twice the divergence (C42).
* Super-resolution masks need a rate that divides both sides; `unobs_shape` is wrong if the rectangle exceeds the image
  (C44). The shift of inpainting masks never takes its largest value (read).
* `Crescent.log_prior_pdf` uses variances as scales; `posterior` integrates along exchanged axes (C46). `sampler`
  multiplies by the Cholesky factor from the wrong side, harmless as it is diagonal (C46).
* `sinusoidal_embedding` with `out_dim=2` is `0/0` (C47).
* `UNet` drops the batch axis of a batch of one (C49).
* `experiments/imgs/train.py:119` passes the step within the epoch as count, so the average restarts each epoch
  (C50_restart describes the effect).
* `enumerate_subset` drops the same tail in every epoch (C43_tail).
* The reference samplers of `experiments/toy` (`gp_gibbs.py`, `gp_filter.py`, `gp_pmcmc.py`) and `experiments/sb`, the
  posterior sampler of `sb/gibbs.py` and the last draw of `gp_kf.py` compute `z @ cholesky(cov)` with the lower factor;
  the covariance of the draw is `LᵀL` (C62).
* `cond_ref_sampler` of `gp_csgm.py` multiplies the noise by the covariance matrix instead of a factor of it (C64).
* `twisted_smc` hands `ts[1:]` as `t_prev` to the transition, so the experiments read drift and dispersion one step late;
  the last twisting function is the density of `y` one denoising step after the last state (C63).
* `l2norm` normalises along the pixel axis by default, not along the last axis as documented, so the similarities of
  `Attention` are not cosines (C65).
* `Image.conv` broadcasts its kernel over all pairs of channels, so a blurred colour image is grey (C66).
* `Image.paint` with a rectangle larger than the image uses negative slice bounds and may blacken a single pixel
  (C45_paint_large); a super-resolution rate larger than the image observes nothing (C44_supr_large_rate); `PixelShuffle` orders channels
  differently from torch for more than one output channel (read); `CIFAR10` overwrites the reshaped data (read).
* `gp_kf.py` uses `sqrt(dt) * dispersion` as a variance, differentiates the mean of `v` with respect to `v` instead of `u`
  and conditions after predicting; it is not exact (C67).
* `gp_filter.py`, `sb/filter.py`, the filter starts of the Gibbs samplers and `pmcmc_kernel` take particle 0 of the
  resampled particles. With `stratified` particle 0 favours the first particles however many there are, so the draw is not
  consistent; for a model with two states its error stays at least 1/24 (C68, C21_stratified_inconsistent). A uniform index
  would make it consistent (C17).
* `pmcmc_init` of `gp_pmcmc.py` stores the *negative* log-likelihood (the second result of `bootstrap_filter`) as
  `log_ell`, computed on another path than the one stored; the image experiments start with the zero image and
  `log_ell = 0`. The chain is right from its first acceptance on, but may stay at the start for long (C69).
* `experiments/imgs/train.py` and `sb_imgs/train.py` draw the permutation of an epoch (and the latter the reference
  samples of a step) from a key that they also split to obtain the keys of the gradient steps; the last `n mod batchSize`
  data are never used for training (C76). `sb_imgs/train.py` uses the same key for both networks (read).
* `make_simple_st_nn` with its default network always raises, `MNISTAutoEncoder` refuses batches, `MNISTResConv` works with
  `make_st_nn` for the batch sizes 1 and 16 only and its resize decoder reads a missing attribute (C71).
* `to_torch_tensor` of `tabulate_imgs.py` exchanges the first and the last axis, so the perceptual distance is computed for
  transposed images, contrary to its docstring (C78). The contour figure drops the spread between chains (C77). The toy
  samplers define `burnin = 100`, but save and tabulate all iterations (read).

- C79: systematic resampling (`fbs/samplers/resampling.py:54-55`) is unbiased (C02) but its variance does not decrease with
  the number of particles for all weights. With weights `3/(2N), 1/(2N), 3/(2N), ...` and the indicator of the even
  positions the resampled mean is off by exactly `1/4` for every draw and every even `N` (`C79_systematic_error`). The
  accuracy theorems of C79 therefore exclude it; the experiments use stratified resampling.
- C79 and C68 together: the particle at a fixed index is not a consistent draw under stratified resampling, the particle at
  a uniformly drawn index is (`C79_uniform_index`).
- C80: `bootstrap_backward_smoother` (`fbs/samplers/smc.py:91-112`) weights the particles with `transition_logpdf` alone. In
  this code the likelihood of the next observation depends on the particle (`likelihood_logpdf(v, u_prev, v_prev, t)`), so the
  backward weights lack the factor `p(v_{k+1} | u_k, v_k)`, and the smoother does not target the smoothing law
  (`C80_not_smoothing`: 1/4 against 1/2 for every number of particles). It is only used to start Gibbs chains.
- C82: `gibbs_kernel` with `explicit_final=False` starts all particles at the end of the noising path of the current state.
  With one particle it never moves (`C82_one_particle_stuck`), and it can only leave the set of states reachable from that
  end point (`C82_pinned_stuck`). With `explicit_final=True` and a noising that treats `x` and `y` separately, as the SDEs of
  the experiments do, the observation path does not depend on the state, and the chain converges geometrically from every
  start if the log potentials are bounded above.
- C83: the rate at which the pseudo-marginal chain forgets its start is the likelihood divided by its largest possible estimate.
  It does not improve with more particles. A wrong `log_ell` at the start (C69) only delays the convergence, by the factor
  `exp (-(log_ell - K b))` in the rate.
- C84: `twisted_smc` is accurate at the rate `1/N` if the incremental weights are bounded. The guided proposals of
  `gp_twisted.py` and of the image scripts shift the mean by the gradient of the twisting function but keep the variance, so
  the density ratio grows with the distance to the observation; already for Brownian noising and a zero score the weights are
  unbounded (`C84_guided_unbounded`, the log weight at `u = u_prev` is `dt (u - y)^2 / 2`).
- C85: `CelebAHQRestore` shuffles the file with its key before it cuts off the 1000 test images. Training uses seed 666, the
  test scripts in `experiments/bashes` use seed 996, so 29 of 30 test images are training images (`C85_leak_experiment`,
  `C85_leak_count`); the default `--test_seed=666` gives the disjoint split (`C85_celeba_partition`). `CIFAR10` overwrites its
  reshaped array (`C85_cifar_flat`); for the file written by `make_cifar10.py` this changes nothing.
- C86: refining the time grid does not repair `gp_csgm.py`. The error of `cond_ref_sampler` (C64) reaches the final sample as the
  covariance excess `F(T)² (G² - G P⁻¹ G)` (`C86_csgm`), so it decays only with the horizon `T`, and is never zero for the
  coefficients of the script (`C86_csgm_biased`).
- C31: with a vector of times and `keep_path=False` the factors of shape `(n,)` meet noise of shape `(n, d)`: the call raises unless `n = d`, `n = 1` or `d = 1`. For `n = d` entry `i` of every row gets time `ts[i]`, so row `k` does not have the law at `ts[k]`. For `d = 1` the result has shape `(n, n)`.
- C87: the divergence formula needs a non-zero dispersion at every grid time that is used. With the dispersion zero at some time the
  two path laws are in general singular and no finite bound holds. The end-to-end bound contains `kl` of the repository, which is
  twice the divergence (C42); the factor is accounted for in `C87_end_to_end`.
- C88: the bound on the conditional laws is an average over the observation path, weighted by its density under the exact drift.
  Both smoothing integrals are those of `toyModel` (C59), so the statement is about the laws the repository's filters and
  conditional samplers target. C79 now asks for a bound of the likelihood only along the observations and the grid, so that it
  applies to these models.
- C89: the experiment `sb_imgs/supr.py` calls `fwd_sampler` with a learned drift, so its noising is in general not separable and the
  guess does matter (`C89_guess_matters`); for the linear SDEs of the other experiments it has no effect at all. The model of
  `jax.image.resize(method='linear')` in `Model/SbImgs.lean` follows `compute_weight_mat` of JAX and is part of the trusted base
  (computed in ℝ; the threshold `1000 * eps` is that of 32-bit floats).
- C90: with `sr_random = False` and an even rate (default 4) `_gen_supr_mask` observes the pixel just after the centre of a block,
  while `jax.image.resize` treats the low-resolution values as sitting at the centres, so the interpolated guess is displaced by half
  a pixel in both directions (`C90_interp_ramp`, `C90_resize_even`). It is a starting guess only (C89).
- C91: the code never checks that the functions handed to `gibbs_kernel` are the time reversal of the forward sampler; in the
  experiments they are a discretisation with a learnt score. C91 bounds what this does to the law of the chain.
- C92: the mean square error of a learnt score is an average over the data. It gives no bound for the chain at one fixed observation,
  so C92 bounds the joint law of the state and of the observation. With `explicit_final=True` (`experiments/sb_imgs/supr.py`) the first
  weight uses the likelihood at `ts[0]` for the first two observations in the wrong order (C15), and no such bound is claimed.
- C93: the pMCMC toy experiment resamples with `stratified`, which is not exchangeable, so the averages of its samples converge
  to the particle marginal of the extended target (`C93_pmcmc_averages`), which need not be the posterior (C21);
  `C93_pmcmc_posterior_averages` covers `killing`.  `C93_stratified_wrong_limit` shows that running the chain
  longer, with more particles or more chains, does not repair it.  The second term of the bound for several chains is the squared bias of the
  start: it does not shrink with `nchains`, but geometrically with the burn-in.
- C94: the acceptance bound holds for every `l`, also for starts that are no log-likelihood (`gp_pmcmc.py` starts at a negative
  log-likelihood, C69).  From a start with `l` far above `log Z` the chain accepts with probability about `Z exp(-l)` or less, so it stays there.
- C95: the comparison is about one resampling step with fixed weights.  The scripts pass `stratified`, so their choice is
  never worse than multinomial resampling; `systematic` has no such guarantee (see C79, where it is excluded for the same reason).
- C96: the comparison is for fixed weights, as `gibbs_kernel` with `explicit_backward=True` calls `force_move` once per sweep.
- C97: the bound is uniform over the reference but exponential in `β (K+1)`, as the proof bounds the whole trajectory by its
  worst case.  The ideal step of `gibbs_kernel` still noises the state, so closeness to it says nothing about the mixing of the ideal chain.
- C98: `Rand.replay` runs a program with a generator, a function from keys to numbers, so that two runs can be compared number
  by number; nothing is assumed about the generator.  The loops of the six scripts split `data_key` also for skipped images but
  not `key`, so after `--start_from=s` the images `s, s+1, …` are restored with the random numbers that images `0, 1, …` got in the
  first run, and pooling the results of both runs treats dependent samples as independent.  The freshness theorem assumes
  calls that use only keys derived from theirs and no key twice; the start `gibbs_init(method='smoother')`, the default of
  `inpainting.py` and `supr.py`, does not satisfy this (C25).
- C99: `Model/SbRuns.lean` models `experiments/sb_imgs/supr.py` from the seed to its files: the array shared by the starts (writes are
  `List.set`), the names under which it is saved and the order of the writes; a later write to a name replaces the earlier one.
  Two things are not as intended. All starts save `-gibbs-init` under the same name, while `plot_sb_imgs_anime.py` puts it in front of the
  chain of the start `blank`; what it shows first is the start of the chain `interp` (`C99_init_lost`). And the sampling key does not
  depend on `y0_id`, so the runs of `bashes/sb_imgs.sh` for different images use the same random numbers (`C99_ids_repeat`).
- C100: `Model/DataFiles.lean`. Assigning a batch to a slice broadcasts a batch of one image and raises for any other wrong number; both
  are in the model (`C100_cifar_single`, `C100_cifar_short`). `jax.image.resize` leaves axes alone whose length does not change.
- C101: the labels "best variable" and "worst variable" of the autocorrelation plots do not hold of single variables. The scripts take
  the minimum (maximum) over the variables at each lag, so the curve is a lower (upper) envelope; `C101_not_one_variable` has two variables
  and four samples where neither curve belongs to a variable. `C101_img_curve` and `C101_toy_curve` say what the curves are. The image plot
  leaves out variables that never change (`nanmin`), the toy plot does not (`C101_toy_nan`).
- C102: the coupling that attains the minimum pushes one standard normal vector of twice the dimension through two linear maps, so singular
  covariances need no separate treatment. The lower bound uses Young's inequality with weights that approach the optimal ones
  (`Lemmas/BuresOt.lean`). The docstring of `bures_dist` says "Wasserstein distance"; the function returns its square (`C102_square`).
- C103: given the particle system, the reference and the new trajectory are two independent draws from the final weights, which is where
  both symmetry and positivity come from (`Lemmas/Reversible.lean`); with the forced move the two draws are exchangeable but not
  independent, so only symmetry is left. The facts about reversible chains are in `Lemmas/ReversibleChain.lean`, written for non-negative
  functions so that no integrability is needed except where it is stated.
- C104: the accept step is written as a Metropolis form with weight = likelihood estimate (Lemmas/Metropolis.lean). A Metropolis chain is
  positive when its proposal is: the accepted part is a mixture over levels of the proposal restricted to a level set, and the rejected
  part is diagonal. Independent proposals are positive by Cauchy–Schwarz. The Crank–Nicolson proposal with factor `beta` is two steps of
  a reversible proposal with factor `sqrt beta` (Lemmas/ProposalPos.lean), which is a square. This uses `beta = 2 / (2 + delta) >= 0`.
- C105: the ideal chain `exactStep` replaces the two likelihood estimates in the acceptance ratio of `pmcmc_kernel` by exact likelihoods.
  The order of the moves is Jensen's inequality for `min` (Lemmas/MetropolisOrder.lean); the bounds in `N` use the variance of the estimate
  (C79). Lag-one products follow from the identity "twice the product plus the mean squared difference is twice the second moment".
  Lemmas/Resolvent.lean passes from lag one to discounted sums over all lags by comparing resolvents, which is a Cauchy–Schwarz argument
  for non-negative functions, and then lets the discount tend to one.
- C106: the converse of C105. `Lemmas/ResolventUpper.lean` compares the discounted sums of the covariances of two reversible positive chains
  when every function on the larger space has an average on the smaller one whose jumps are at most `W` times as large; the comparison is made
  with functions shifted by a constant, which keeps everything non-negative. `Lemmas/MetropolisUpper.lean` supplies the average: the estimates
  of a path are weighted in proportion to themselves. `EstimateBound` asks for the bound on the estimates almost surely only. Together with
  C105 the asymptotic variance of `pmcmc_kernel` lies between that of the ideal chain and `W` times that.
- C107: C97 turned into a statement on chains. Given the paths, the stationary law of the trajectory is invariant under the particle part,
  and the expected product of `f` at its two ends is the square of a conditional mean plus something non-negative (`idealPinned_le`,
  `idealRef_le`, by Cauchy–Schwarz over the particles); `Lemmas/IdealKer.lean` shows that the ideal steps are Markov kernels, reversible and
  positive. The total-variation bound of C97 is used as a domination of kernels, `(1 - δ) · ideal ≤ gibbs_kernel`, and
  `Lemmas/IdealOrder.lean` derives both bounds on the sums of autocovariances. For `δ ≥ 1` the second bound is trivial (`ENNReal.ofReal`).
- C108: C96 carried from the index to the whole chain. `C108_index` compares the forced move with an independent draw through the identity
  "twice the product plus the squared jump is twice the second moment"; the pair representation of C103 lifts it to one call and
  `discounted_le` (Lemmas/Resolvent.lean) to all lags.
- C109: `Model/CsmcLoop.lean` (repeated calls of `csmc_kernel` with fixed observations). `Lemmas/CsmcChain.lean` turns one call into a Markov kernel
  on trajectories `Fin (K+1) → U` (the law does not depend on the numbering, C58) and the smoothing functional into a measure;
  reversibility and positivity are C103, the domination of `1 - δ` times the target is the bound behind C97, and `sandwich` compares
  with the chain of independent draws, whose autocovariances vanish after lag zero.
- C110: `csmcGibbs` (Model/CsmcLoop.lean) is the loop of `tests/test_csmc.py`. `forward_pass` weights the particles at time `k-1` with
  the density of observation `k`, so `csmc_kernel` targets `init(u0) g(v0|u0) Π g(v_k|u_{k-1}) M(u_k|u_{k-1})`
  (`target_space`, Lemmas/Emission.lean). The docstring of `csmc_kernel` says so (`p(v_k | u_{k-1}, v_{k-1})`), but the test draws `v_k` at `u_k`
  (tests/test_csmc.py:60-62). `C110_prior_kept` is the claim of the test for lagged observations, `C110_own_state_fails` the
  counterexample for the observations the test draws. The latter uses the distance to the ideal draw (C97) with a million particles.
  `C110_test_fails` (Props/CsmcBias.lean) is the failure for the functions of the test themselves, with two times: given both
  observations, the exact draw of the first state depends on their sum only. If the prior were kept, the sum of the observations
  of two different states would have the law of the sum of two observations of one state, by uniqueness of Laplace transforms
  (Lemmas/Complete.lean, applied in Lemmas/TanhPair.lean), and comparing second moments forces the two states to be equal. Many particles come close to the exact draw (C97, now
  with bounds at the observations at hand only, `C97_csmc_limit_at`).
- C111: `Model/CsmcTest.lean` has the functions of `tests/test_csmc.py`. `C110_test_functions` shows that they are the functions of
  the hidden Markov model `testH`, `C111_prior` that `gp_sampler` draws from its prior (`chainMat` is the linear map from the
  draws to the states), `C111_gibbs` that the lagged loop keeps this law. `ts` is `dt * i`, which is `linspace(0, T, nsteps + 1)`.
- C112: `Model/CsmcRun.lean` is the program of `tests/test_csmc.py` up to the recorded rows, for both values of `backward`. The trajectory in
  row `i` is that of `csmcGibbs` after `i + 1` rounds (`gibbsSamples_get`, which only needs that all draws have total mass one), so
  C110 and C111 carry over to rows. The number of particles is `nparticles + 1`, as in `forward_pass`.

Instances for C36, C40 and C41.  `Props/UtilsWitness.lean` gives two-dimensional inputs that meet the hypotheses of the
theorems of `Props/Utils.lean` and `Props/GaussSB.lean`: a shear with singular noise, the square root of `4 I`, the distance
between `N(0, I)` and `N(0, 2 I)`, and the bridge from `N(0, I)` to `N(0, 6 I)`.
