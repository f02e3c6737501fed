{
 "claims": [
  {
   "property": "C01",
   "status": "proved",
   "theorems": [
    "Fbs.Props.C01_conditional_killing_exact",
    "Fbs.Props.C01_event_probability"
   ],
   "note": "Exact conditional law against all test functions, plus the probability of the conditioning event."
  },
  {
   "property": "C02",
   "status": "proved",
   "theorems": [
    "Fbs.Props.C02_killing_unbiased",
    "Fbs.Props.C02_csmc_killing_unbiased",
    "Fbs.Props.C02_csmc_multinomial_unbiased",
    "Fbs.Props.C02_systematic_unbiased",
    "Fbs.Props.C02_standard_systematic_unbiased",
    "Fbs.Props.C02_stratified_unbiased"
   ],
   "note": "systematic, stratified, both killing functions and the csmc multinomial."
  },
  {
   "property": "C03",
   "status": "proved",
   "theorems": [
    "Fbs.Props.C03_systematic_copies",
    "Fbs.Props.C03_systematic_copies_as",
    "Fbs.Props.C03_stratified_copies"
   ],
   "note": "For every offset in (0,1); program-level almost-sure version included. The single admissible draw u=0 is excluded, see C04."
  },
  {
   "property": "C04",
   "status": "proved",
   "theorems": [
    "Fbs.Props.C04_stratified_sorted",
    "Fbs.Props.C04_systematic_sorted",
    "Fbs.Props.C04_standard_systematic_sorted",
    "Fbs.Props.C04_comb_positive_weight",
    "Fbs.Props.C04_zero_draw_selects_zero_weight",
    "Fbs.Props.C04_standard_systematic_in_range_iff",
    "Fbs.Props.C04_standard_systematic_in_range",
    "Fbs.Props.C04_standard_systematic_out_of_range",
    "Fbs.Props.C04_choice_valid",
    "Fbs.Props.C04_sorted_uniforms",
    "Fbs.Props.C04_multinomial_sorted"
   ],
   "note": "Validity and order for all draws; the zero-weight claim for draws in (0,1) as stated; C04_zero_draw_selects_zero_weight shows it fails at the admissible draw u=0; the unclipped scheme can return N for unnormalised weights."
  },
  {
   "property": "C05",
   "status": "proved",
   "theorems": [
    "Fbs.Props.C05_heaviest_stays",
    "Fbs.Props.C05_uniform_identity",
    "Fbs.Props.C05_never_zero_weight",
    "Fbs.Props.C05_csmc_killing_unconditional"
   ],
   "note": "All draws."
  },
  {
   "property": "C06",
   "status": "proved",
   "theorems": [
    "Fbs.Props.C06_killing_pins",
    "Fbs.Props.C06_multinomial_pins",
    "Fbs.Props.C06_conditional_multinomial_exact",
    "Fbs.Props.C06_conditional_systematic_refuses",
    "Fbs.Props.C06_standard_systematic_ok"
   ],
   "note": "Pinning for all draws; conditional multinomial law; systematic refuses."
  },
  {
   "property": "C07",
   "status": "proved",
   "theorems": [
    "Fbs.Props.C07_forward_pass_rows",
    "Fbs.Props.C07_reference_retained",
    "Fbs.Props.C07_trace_reference"
   ],
   "note": "Rows, lineage and ancestor tracing for every draw and every number of steps."
  },
  {
   "property": "C08",
   "status": "proved",
   "theorems": [
    "Fbs.Props.C08_normalise_weights",
    "Fbs.Props.C08_normalise_shift",
    "Fbs.Props.C08_normalise_order",
    "Fbs.Props.C08_forward_pass_weights"
   ],
   "note": "All finite log weights; every row of the forward pass."
  },
  {
   "property": "C09",
   "status": "proved",
   "theorems": [
    "Fbs.Props.C09_backward_scanning",
    "Fbs.Props.C09_backward_sampling",
    "Fbs.Props.C09_kernel_length"
   ],
   "note": "Both backward passes and both kernel variants."
  },
  {
   "property": "C10",
   "status": "proved",
   "theorems": [
    "Fbs.Props.C10_csmc_invariant",
    "Fbs.Props.C10_csmc_killing",
    "Fbs.Props.C10_csmc_multinomial"
   ],
   "note": "For every measurable state space, kernels and likelihoods, number of particles and steps; with killing and with multinomial resampling, and for any exact conditional scheme."
  },
  {
   "property": "C11",
   "status": "partial",
   "theorems": [
    "Fbs.Props.C11_backward_not_invariant",
    "Fbs.Props.C11_backward_invariant_partial",
    "Fbs.Props.C11_backward_constant_likelihood_partial"
   ],
   "note": "The claim is false of the code: C11_backward_not_invariant exhibits a two-particle, one-step model where csmc_kernel(backward=True) changes the target because the backward weights leave out the likelihood of v_{k+1}. Proved for all models: the kernel is invariant if the supplied transition_logpdf accounts for that likelihood (C11_backward_invariant_partial), in particular if the likelihood of the next observation is constant in the previous state (C11_backward_constant_likelihood_partial)."
  },
  {
   "property": "C12",
   "status": "partial",
   "theorems": [
    "Fbs.Props.C12_force_move_reversible",
    "Fbs.Props.C12_force_move_invariant",
    "Fbs.Props.C12_force_move_keeps_certain",
    "Fbs.Props.C12_force_move_near_invariant_partial",
    "Fbs.Props.C12_degenerate_not_invariant"
   ],
   "note": "Reversibility and invariance for weights whose entries are below the threshold or equal to one; within 1e-12 otherwise; C12_degenerate_not_invariant shows exact invariance fails in the numerically-one branch."
  },
  {
   "property": "C13",
   "status": "partial",
   "theorems": [
    "Fbs.Props.C13_acceptance",
    "Fbs.Props.C13_reported",
    "Fbs.Props.C13_alpha_exact_iff_partial",
    "Fbs.Props.C13_alpha_upper_bound_partial",
    "Fbs.Props.C13_alpha_exact_partial",
    "Fbs.Props.C13_alpha_wrong"
   ],
   "note": "alpha bounds the acceptance probability from above; both are computed exactly (C13_acceptance, C13_reported), and they agree iff no other particle is heavier or none of positive weight is lighter than the reference (C13_alpha_exact_iff_partial); C13_alpha_wrong is a case where they differ."
  },
  {
   "property": "C14",
   "status": "proved",
   "theorems": [
    "Fbs.Props.C14_gibbs_invariant",
    "Fbs.Props.C14_gibbs_explicit_backward"
   ],
   "note": "Joint law of the returned x0 and the indices, for every model that factorises backwards (Spec.BackwardExact), every number of particles and steps; with explicit_backward when the weights avoid the numerically-one branch of force_move (see C12)."
  },
  {
   "property": "C15",
   "status": "partial",
   "theorems": [
    "Fbs.Props.C15_explicit_final_partial",
    "Fbs.Props.C15_constant_likelihood_partial",
    "Fbs.Props.C15_explicit_final_counterexample",
    "Fbs.Props.C15_explicit_backward_partial"
   ],
   "note": "False of the code: C15_explicit_final_counterexample gives an exact model with product reference terminal law whose posterior is not invariant, for every number of particles. Proved instead: invariance when the terminal law carries the extra factor exp(likelihood_logpdf(v0,u0,v1,t0)) that the code uses as initial weight, and when that likelihood is constant in the state. The forced move (explicit_backward=True) is covered by C15_explicit_backward_partial under the same tilted law, when no weight is numerically one."
  },
  {
   "property": "C16",
   "status": "partial",
   "theorems": [
    "Fbs.Props.C16_one_call",
    "Fbs.Props.C16_explicit_backward_particle",
    "Fbs.Props.C16_indices_partial",
    "Fbs.Props.C16_history",
    "Fbs.Props.C16_index_can_be_nparticles",
    "Fbs.Props.C16_init_methods",
    "Fbs.Props.C16_init_filter",
    "Fbs.Props.C16_init_smoother_incoherent",
    "Fbs.Props.C16_init_particles"
   ],
   "note": "Structural invariants of one call and of any history, gibbs_init methods. Fails: with explicit_final and not explicit_backward the last index can equal nparticles; gibbs_init(method='smoother') returns an x0 that is not the last entry of the trajectory (both witnessed)."
  },
  {
   "property": "C17",
   "status": "proved",
   "theorems": [
    "Fbs.Props.C17_filter_unbiased",
    "Fbs.Props.C17_likelihood_unbiased"
   ],
   "note": "For every state space, particle count, number of steps and unbiased resampling scheme; instances for systematic, stratified, killing, the csmc multinomial and the sorted multinomial (C56)."
  },
  {
   "property": "C18",
   "status": "proved",
   "theorems": [
    "Fbs.Props.C18_pmcmc_filter_unbiased",
    "Fbs.Props.C18_likelihood_unbiased"
   ],
   "note": "Same generality as C17."
  },
  {
   "property": "C19",
   "status": "partial",
   "theorems": [
    "Fbs.Props.C19_return_last",
    "Fbs.Props.C19_rows",
    "Fbs.Props.C19_unit_likelihood",
    "Fbs.Props.C19_log_flag_wrong"
   ],
   "note": "return_last, row structure and the unit-likelihood case are proved; the claim about the log flag is false (C19_log_flag_wrong: the flag is ignored)."
  },
  {
   "property": "C20",
   "status": "proved",
   "theorems": [
    "Fbs.Props.C20_atomic",
    "Fbs.Props.C20_acceptance_probability",
    "Fbs.Props.C20_history"
   ],
   "note": "Atomic accept/reject, exact acceptance probability, coherence along every history."
  },
  {
   "property": "C21",
   "status": "partial",
   "theorems": [
    "Fbs.Props.C21_stratified_inconsistent",
    "Fbs.Props.C21_extended_invariant",
    "Fbs.Props.C21_extended_invariant_pcn",
    "Fbs.Props.C21_average_marginal",
    "Fbs.Props.C21_posterior_partial",
    "Fbs.Props.C21_chain_posterior_partial",
    "Fbs.Props.C21_chain_posterior_pcn_partial",
    "Fbs.Props.C21_stratified_counterexample"
   ],
   "note": "Invariance of the extended target: all schemes of the library, independent and pCN proposals, every index. The particle marginal is p(x0|y0) for exchangeable schemes (killing); it is false for stratified with a fixed index (C21_stratified_counterexample), the property's documented scheme, where only the average over the index is exact (C21_average_marginal)."
  },
  {
   "property": "C22",
   "status": "proved",
   "theorems": [
    "Fbs.Props.C22_exchangeable",
    "Fbs.Props.C22_preserves",
    "Fbs.Props.C22_correlation",
    "Fbs.Props.C22_fixed"
   ],
   "note": "Exchangeability, invariance, cross covariance 2/(2+delta) on any separable Banach space of paths, fixed components."
  },
  {
   "property": "C23",
   "status": "proved",
   "theorems": [
    "Fbs.Props.C23_forget_constant",
    "Fbs.Props.C23_weights_normalised",
    "Fbs.Props.C23_properly_weighted"
   ],
   "note": "Exact normalisation for all draws; properly weighted for every twisting, proposal and unbiased resampling scheme."
  },
  {
   "property": "C24",
   "status": "proved",
   "theorems": [
    "Fbs.Props.C24_resampling_keys",
    "Fbs.Props.C24_force_move_keys",
    "Fbs.Props.C24_csmc_kernel_keys",
    "Fbs.Props.C24_bootstrap_filter_keys",
    "Fbs.Props.C24_pmcmc_kernel_keys",
    "Fbs.Props.C24_twisted_smc_keys",
    "Fbs.Props.C24_gibbs_kernel_keys",
    "Fbs.Props.C24_gibbs_init_keys"
   ],
   "note": "All listed functions and gibbs_init for the methods other than 'smoother'; user samplers are assumed to consume only keys derived from the key they receive."
  },
  {
   "property": "C25",
   "status": "partial",
   "theorems": [
    "Fbs.Props.C25_particles",
    "Fbs.Props.C25_step_keys_partial",
    "Fbs.Props.C25_keys_not_fresh"
   ],
   "note": "Particles claim proved. The key claim is false: C25_keys_not_fresh shows the first draw uses the parent key of the others; C25_step_keys_partial gives freshness of the remaining draws."
  },
  {
   "property": "C26",
   "status": "proved",
   "theorems": [
    "Fbs.Props.C26_flow",
    "Fbs.Props.C26_moments"
   ],
   "note": "all three linear SDE classes, all times"
  },
  {
   "property": "C27",
   "status": "proved",
   "theorems": [
    "Fbs.Props.C27_ode",
    "Fbs.Props.C27_unique"
   ],
   "note": "F and Q solve the moment ODEs and are their unique solution"
  },
  {
   "property": "C28",
   "status": "proved",
   "theorems": [
    "Fbs.Props.C28_beta",
    "Fbs.Props.C28_integral"
   ],
   "note": "linear schedule"
  },
  {
   "property": "C29",
   "status": "proved",
   "theorems": [
    "Fbs.Props.C29_bounds",
    "Fbs.Props.C29_increasing"
   ],
   "note": "bounds and monotonicity on admissible parameters"
  },
  {
   "property": "C30",
   "status": "proved",
   "theorems": [
    "Fbs.Props.C30_score",
    "Fbs.Props.C30_score_admissible"
   ],
   "note": "score = derivative of the log Gaussian transition density"
  },
  {
   "property": "C31",
   "status": "partial",
   "theorems": [
    "Fbs.Props.C31_shape",
    "Fbs.Props.C31_joint",
    "Fbs.Props.C31_marginal",
    "Fbs.Props.C31_single",
    "Fbs.Props.C31_default_t0_raises",
    "Fbs.Props.C31_ou_marginals",
    "Fbs.Props.C31_times_raises",
    "Fbs.Props.C31_times_one",
    "Fbs.Props.C31_times_square",
    "Fbs.Props.C31_times_wrong",
    "Fbs.Props.C31_times_column",
    "Fbs.Props.C31_pair"
   ],
   "note": "joint law for every admissible grid; what fails is proved: keep_path=False with t0=None raises; a vector ts with keep_path=False raises unless its length is the dimension or one of them is one, with equal lengths the times run along the wrong axis (law computed, shown different from the intended one), with one-dimensional states the result is an n by n array"
  },
  {
   "property": "C32",
   "status": "proved",
   "theorems": [
    "Fbs.Props.C32_discretise",
    "Fbs.Props.C32_paths",
    "Fbs.Props.C32_marginal"
   ],
   "note": "OU twins equal the general simulators as programs"
  },
  {
   "property": "C33",
   "status": "partial",
   "theorems": [
    "Fbs.Props.C33_refinement_law_partial",
    "Fbs.Props.C33_last",
    "Fbs.Props.C33_shape",
    "Fbs.Props.C33_composition",
    "Fbs.Props.C33_refinement_partial",
    "Fbs.Props.C33_decreasing_overshoots",
    "Fbs.Props.C33_discrete_time"
   ],
   "note": "all clauses but the last; the last one is false for decreasing grids and n>1 (C33_decreasing_overshoots)"
  },
  {
   "property": "C34",
   "status": "proved",
   "theorems": [
    "Fbs.Props.C34_involution",
    "Fbs.Props.C34_simulator",
    "Fbs.Props.C34_moments"
   ],
   "note": "involution, Euler recursion, reversed moment equations, error branch"
  },
  {
   "property": "C35",
   "status": "proved",
   "theorems": [
    "Fbs.Props.C35_pinned",
    "Fbs.Props.C35_single",
    "Fbs.Props.C35_drift",
    "Fbs.Props.C35_program",
    "Fbs.Props.C35_kolmogorov"
   ],
   "note": "for grids with at least two times (C35_single shows one-time grids lose x0); classes with bridge_drift"
  },
  {
   "property": "C36",
   "status": "proved",
   "theorems": [
    "Fbs.Props.C36_coupling",
    "Fbs.Props.C36_marginals",
    "Fbs.Props.C36_cov_posDef",
    "Fbs.Props.C36_mean_ode",
    "Fbs.Props.C36_cov_ode"
   ],
   "note": "Marginals, coupling and moment ODEs of the Gaussian bridge; eigh and cho_factor enter through their contracts, for which existence is shown."
  },
  {
   "property": "C37",
   "status": "proved",
   "theorems": [
    "Fbs.Props.C37_cont_value",
    "Fbs.Props.C37_cont_v_value",
    "Fbs.Props.C37_agree",
    "Fbs.Props.C37_disc",
    "Fbs.Props.C37_nonneg",
    "Fbs.Props.C37_disc_nonneg",
    "Fbs.Props.C37_zero"
   ],
   "note": "Values of the three IPF losses are exactly the mean squared mismatch along the simulated chain; non-negative; zero exactly as claimed; the two continuous variants agree."
  },
  {
   "property": "C38",
   "status": "proved",
   "theorems": [
    "Fbs.Props.C38_noised_density",
    "Fbs.Props.C38_pointwise",
    "Fbs.Props.C38_random_times",
    "Fbs.Props.C38_nonneg",
    "Fbs.Props.C38_zero",
    "Fbs.Props.C38_expected_loss",
    "Fbs.Props.C38_population_minimiser",
    "Fbs.Props.C38_dataset_minimiser",
    "Fbs.Props.C38_excess",
    "Fbs.Props.C38_unique"
   ],
   "note": "The noised data law has the stated density; its score is the unique pointwise minimiser of the conditional expectation and minimises the expected loss of the whole program over all measurable row-wise networks, for a population and for every data set; times and non-negativity; the excess loss of a network is exactly its weighted mean squared distance to the score, which is therefore the only continuous minimiser."
  },
  {
   "property": "C39",
   "status": "partial",
   "theorems": [
    "Fbs.Props.C39_given_times_partial",
    "Fbs.Props.C39_ou_partial",
    "Fbs.Props.C39_t0_counterexample",
    "Fbs.Props.C39_save_mem_counterexample",
    "Fbs.Props.C39_save_mem_types_partial"
   ],
   "note": "Equal programs for t0 = 0 and fixed times (given the times also for random ones); false for t0 != 0 and for save_mem with 'ipf'/'ipf-score' (counterexamples proved). For random times the lower end of the time range differs (t0 against t0 + 1e-5)."
  },
  {
   "property": "C40",
   "status": "proved",
   "theorems": [
    "Fbs.Props.C40_start",
    "Fbs.Props.C40_mean_ode",
    "Fbs.Props.C40_cov_ode",
    "Fbs.Props.C40_unique",
    "Fbs.Props.C40_symm",
    "Fbs.Props.C40_compose",
    "Fbs.Props.C40_posSemidef"
   ],
   "note": "Mean and covariance ODEs of the discretisation with uniqueness, composition, symmetry and positive semidefiniteness."
  },
  {
   "property": "C41",
   "status": "proved",
   "theorems": [
    "Fbs.Props.C41_sqrtm",
    "Fbs.Props.C41_sqrtm_unique",
    "Fbs.Props.C41_bures_symm",
    "Fbs.Props.C41_bures_nonneg",
    "Fbs.Props.C41_bures_zero"
   ],
   "note": "Only method='eigh'; the contract of eigh on symmetric matrices is a hypothesis and is shown satisfiable."
  },
  {
   "property": "C42",
   "status": "partial",
   "theorems": [
    "Fbs.Props.C42_log_det",
    "Fbs.Props.C42_twice_divergence_partial",
    "Fbs.Props.C42_nonneg",
    "Fbs.Props.C42_zero",
    "Fbs.Props.C42_scale_counterexample"
   ],
   "note": "False as stated: the code omits the factor 1/2 (C42_scale_counterexample). Proved: the value is exactly twice the divergence, non-negative, zero iff the Gaussians coincide."
  },
  {
   "property": "C43",
   "status": "proved",
   "theorems": [
    "Fbs.Props.C43_array_split",
    "Fbs.Props.C43_epoch",
    "Fbs.Props.C43_once",
    "Fbs.Props.C43_tail",
    "Fbs.Props.C43_every_split",
    "Fbs.Props.C43_index_past_end",
    "Fbs.Props.C43_batch",
    "Fbs.Props.C43_errors",
    "Fbs.Props.C43_draw",
    "Fbs.Props.C43_draw_fair"
   ],
   "note": "Exactly the retained indices, each once, in chunks of the batch size, for every draw; every split can occur; batches, errors, draw_subset (distinct, fair)."
  },
  {
   "property": "C44",
   "status": "partial",
   "theorems": [
    "Fbs.Props.C44_inpaint",
    "Fbs.Props.C44_supr",
    "Fbs.Props.C44_concat_unpack",
    "Fbs.Props.C44_unpack_concat",
    "Fbs.Props.C44_unobs_shape_partial",
    "Fbs.Props.C44_unobs_shape_counterexample",
    "Fbs.Props.C44_supr_counterexample",
    "Fbs.Props.C44_supr_large_rate",
    "Fbs.Props.C44_supr_law",
    "Fbs.Props.C44_supr_centred"
   ],
   "note": "Masks partition the pixels with the declared index sizes (inpainting: every size, clipped to the image; super-resolution: rate dividing both sides), one observed pixel per block, concat and unpack mutually inverse. unobs_shape is wrong when the rectangle is larger than the image (counterexample), and super-resolution masks are not partitions when the rate does not divide the sides (counterexample)."
  },
  {
   "property": "C45",
   "status": "proved",
   "theorems": [
    "Fbs.Props.C45_unpack_concat",
    "Fbs.Props.C45_concat_unpack",
    "Fbs.Props.C45_expand",
    "Fbs.Props.C45_clip",
    "Fbs.Props.C45_norm_defined",
    "Fbs.Props.C45_norm",
    "Fbs.Props.C45_norm_idempotent",
    "Fbs.Props.C45_norm_affine",
    "Fbs.Props.C45_paint",
    "Fbs.Props.C45_paint_large",
    "Fbs.Props.C45_paint_corners"
   ],
   "note": "concat/unpack are mutually inverse, clip and min-max normalisation stay in range and are idempotent, paint changes exactly the rectangle"
  },
  {
   "property": "C46",
   "status": "partial",
   "theorems": [
    "Fbs.Props.C46_sampler",
    "Fbs.Props.C46_likelihood",
    "Fbs.Props.C46_prior_partial",
    "Fbs.Props.C46_prior_counterexample",
    "Fbs.Props.C46_score",
    "Fbs.Props.C46_score_formula",
    "Fbs.Props.C46_posterior_partial",
    "Fbs.Props.C46_posterior_counterexample"
   ],
   "note": "Sampler law, likelihood and score are proved for all inputs. The prior log density takes variances as scales (counterexample), and the mesh posterior integrates to one only on meshes with proportional steps (counterexample otherwise)."
  },
  {
   "property": "C47",
   "status": "partial",
   "theorems": [
    "Fbs.Props.C47_refuses",
    "Fbs.Props.C47_values_partial",
    "Fbs.Props.C47_two_counterexample",
    "Fbs.Props.C47_injective_partial"
   ],
   "note": "Shape, range, frequencies, refusals and injectivity are proved for every even dimension except two, where the code divides zero by zero and returns nan (C47_two_counterexample)."
  },
  {
   "property": "C48",
   "status": "proved",
   "theorems": [
    "Fbs.Props.C48_values",
    "Fbs.Props.C48_lossless",
    "Fbs.Props.C48_shape"
   ],
   "note": "values and bijection of positions for all shapes, scales and inputs"
  },
  {
   "property": "C49",
   "status": "partial",
   "theorems": [
    "Fbs.Props.C49_accepts",
    "Fbs.Props.C49_shape_partial",
    "Fbs.Props.C49_single",
    "Fbs.Props.C49_batch_counterexample",
    "Fbs.Props.C49_refuses"
   ],
   "note": "Acceptance is characterised exactly for all configurations and shapes; the output has the input shape for single images and for batches of size other than one. A batch of one image loses its batch axis (C49_batch_counterexample)."
  },
  {
   "property": "C50",
   "status": "proved",
   "theorems": [
    "Fbs.Props.C50_refuses",
    "Fbs.Props.C50_weights",
    "Fbs.Props.C50_convex",
    "Fbs.Props.C50_stays",
    "Fbs.Props.C50_restart",
    "Fbs.Props.C50_running"
   ],
   "note": "documented weights, convexity, invariant convex sets, restart and closed form for running counts"
  },
  {
   "property": "C51",
   "status": "proved",
   "theorems": [
    "Fbs.Props.C51_down",
    "Fbs.Props.C51_blocks",
    "Fbs.Props.C51_downsample"
   ],
   "note": "law of the corruption, block constancy and idempotence, for sides that are multiples of the ratio"
  },
  {
   "property": "C52",
   "status": "proved",
   "theorems": [
    "Fbs.Props.C52_excess",
    "Fbs.Props.C52_unique",
    "Fbs.Props.C52_program_unique",
    "Fbs.Props.C52_population_minimiser",
    "Fbs.Props.C52_program_minimiser"
   ],
   "note": "Given increasing times (any grid) and for the whole program with random_times=False. E treats the data as independent draws from the law. The excess over the least value is the mean squared distance to the score; a continuous network reaching the least value is the score at every training time."
  },
  {
   "property": "C53",
   "status": "proved",
   "theorems": [
    "Fbs.Props.C53_excess",
    "Fbs.Props.C53_unique",
    "Fbs.Props.C53_program_unique",
    "Fbs.Props.C53_tweedie",
    "Fbs.Props.C53_population_minimiser",
    "Fbs.Props.C53_program_minimiser"
   ],
   "note": "Given increasing times (any grid) and for the whole program with random_times=False. The excess over the least value is the mean squared distance to the target; a continuous network reaching the least value is the target at every training time."
  },
  {
   "property": "C54",
   "status": "proved",
   "theorems": [
    "Fbs.Props.C54_excess",
    "Fbs.Props.C54_unique",
    "Fbs.Props.C54_program_unique",
    "Fbs.Props.C54_times",
    "Fbs.Props.C54_expected_loss",
    "Fbs.Props.C54_population_minimiser",
    "Fbs.Props.C54_times_ok",
    "Fbs.Props.C54_nonneg",
    "Fbs.Props.C54_program"
   ],
   "note": "Expected loss of the whole program; minimiser given the times. Excess and uniqueness as for C52."
  },
  {
   "property": "C55",
   "status": "proved",
   "theorems": [
    "Fbs.Props.C55_law",
    "Fbs.Props.C55_total"
   ],
   "note": "The draws are taken as independent; the reuse of the parent key for the last state (C25) is a separate finding."
  },
  {
   "property": "C56",
   "status": "proved",
   "theorems": [
    "Fbs.Props.C56_multinomial_symmetric",
    "Fbs.Props.C56_multinomial_law",
    "Fbs.Props.C56_multinomial_unbiased",
    "Fbs.Props.C56_agrees_with_csmc",
    "Fbs.Props.C56_positive_weight"
   ],
   "note": "Full law of the index array; the change of variables from exponential spacings to order statistics is proved from Lebesgue measure."
  },
  {
   "property": "C57",
   "status": "proved",
   "theorems": [
    "Fbs.Props.C57_bridge_ends",
    "Fbs.Props.C57_init_bridge_ends",
    "Fbs.Props.C57_marg_y_invariant",
    "Fbs.Props.C57_marg_y_explicit_backward"
   ],
   "note": "End points for the library's Euler-Maruyama bridge and every draw. Invariance takes exactness of the bridge as a hypothesis (Spec.BridgeExact, shown satisfiable): the discretised bridge of the library meets it only approximately."
  },
  {
   "property": "C58",
   "status": "proved",
   "theorems": [
    "Fbs.Props.C58_csmc_index_free",
    "Fbs.Props.C58_gibbs_index_free",
    "Fbs.Props.C58_gibbs_final_index_free",
    "Fbs.Props.C58_invariant_any_indices",
    "Fbs.Props.C58_final_invariant_any_indices",
    "Fbs.Props.C58_gibbs_loop",
    "Fbs.Props.C58_gibbs_loop_final"
   ],
   "note": "Cyclic relabelling of the particles of every time. The invariance statements carry the hypotheses of C14 (for explicit_final those of C15_explicit_final_partial, i.e. the tilted terminal law); the index statements need only that particles are drawn independently."
  },
  {
   "property": "C59",
   "status": "proved",
   "theorems": [
    "Fbs.Props.C59_path_law",
    "Fbs.Props.C59_filter",
    "Fbs.Props.C59_csmc",
    "Fbs.Props.C59_transition_density",
    "Fbs.Props.C59_grid"
   ],
   "note": "Drift measurable in the state; resampling unbiased (C17) resp. exact conditional (C10)."
  },
  {
   "property": "C60",
   "status": "proved",
   "theorems": [
    "Fbs.Props.C60_kernel_posDef",
    "Fbs.Props.C60_data",
    "Fbs.Props.C60_posterior"
   ],
   "note": "Positive definiteness through an explicit triangular factor of the exponential kernel; laws are Mathlib's multivariate Gaussian measures."
  },
  {
   "property": "C61",
   "status": "proved",
   "theorems": [
    "Fbs.Props.C61_noised",
    "Fbs.Props.C61_score",
    "Fbs.Props.C61_reverse"
   ],
   "note": "C61_reverse states the mean and covariance equations (which determine a Gaussian process law of a linear SDE); the SDE itself is not formalised."
  },
  {
   "property": "C62",
   "status": "partial",
   "theorems": [
    "Fbs.Props.C62_conditional",
    "Fbs.Props.C62_ref_law",
    "Fbs.Props.C62_ref_exact_iff_partial",
    "Fbs.Props.C62_ref_biased",
    "Fbs.Props.C62_init_law",
    "Fbs.Props.C62_row_law",
    "Fbs.Props.C62_filter"
   ],
   "note": "The sampler is exact iff the conditional covariance is diagonal (C62_ref_exact_iff_partial); for the experiments it is not (C62_ref_biased). The conditional mean and covariance, the law actually drawn, the exact init_sampler and the law targeted by the filter are proved in full."
  },
  {
   "property": "C63",
   "status": "proved",
   "theorems": [
    "Fbs.Props.C63_forget",
    "Fbs.Props.C63_target",
    "Fbs.Props.C63_img",
    "Fbs.Props.C63_img_sd",
    "Fbs.Props.C63_guidance",
    "Fbs.Props.C63_gp",
    "Fbs.Props.C63_not_likelihood"
   ],
   "note": "The target is the one the code implements; C63_not_likelihood shows that it is not the observation likelihood of the last state. Exact time-shift and final weight are part of the statement."
  },
  {
   "property": "C64",
   "status": "partial",
   "theorems": [
    "Fbs.Props.C64_ref",
    "Fbs.Props.C64_drift",
    "Fbs.Props.C64_ref_law",
    "Fbs.Props.C64_sampler",
    "Fbs.Props.C64_ref_exact_iff_partial",
    "Fbs.Props.C64_ref_biased",
    "Fbs.Props.C64_img"
   ],
   "note": "Everything is proved except the law of cond_ref_sampler, which is false of the code (C64_ref_biased); C64_ref_exact_iff_partial says exactly when it is right."
  },
  {
   "property": "C65",
   "status": "proved",
   "theorems": [
    "Fbs.Props.C65_attention",
    "Fbs.Props.C65_linear",
    "Fbs.Props.C65_linear_weights",
    "Fbs.Props.C65_range",
    "Fbs.Props.C65_equivariant",
    "Fbs.Props.C65_batch",
    "Fbs.Props.C65_l2norm",
    "Fbs.Props.C65_similarity_bound",
    "Fbs.Props.C65_not_cosine",
    "Fbs.Props.C65_layerNorm",
    "Fbs.Props.C65_standardised"
   ],
   "note": "The documented meaning of l2norm is refuted by C65_not_cosine; C65_l2norm and C65_similarity_bound say what holds instead."
  },
  {
   "property": "C66",
   "status": "proved",
   "theorems": [
    "Fbs.Props.C66_standardise",
    "Fbs.Props.C66_standardise_nan",
    "Fbs.Props.C66_grey",
    "Fbs.Props.C66_colour_blind",
    "Fbs.Props.C66_conv_range",
    "Fbs.Props.C66_conv_scale",
    "Fbs.Props.C66_conv_nan",
    "Fbs.Props.C66_mirror",
    "Fbs.Props.C66_point_spread",
    "Fbs.Props.C66_sampler",
    "Fbs.Props.C66_corrupt",
    "Fbs.Props.C66_enumerate",
    "Fbs.Props.C66_restore"
   ],
   "note": "nan is modelled as none; the floating point value of the blur is taken to be exact."
  },
  {
   "property": "C67",
   "status": "partial",
   "theorems": [
    "Fbs.Props.C67_step_partial",
    "Fbs.Props.C67_exact_step",
    "Fbs.Props.C67_variance",
    "Fbs.Props.C67_not_exact",
    "Fbs.Props.C67_sampler"
   ],
   "note": "Exactness is false (C67_not_exact); C67_step_partial says which model the filter solves and C67_exact_step what an exact step is."
  },
  {
   "property": "C68",
   "status": "partial",
   "theorems": [
    "Fbs.Props.C68_filter_sampler_inconsistent",
    "Fbs.Props.C68_particle_zero_inconsistent"
   ],
   "note": "The claim is false of the code; proved is its negation with a bound uniform in the number of particles. That averages over all particles are right is C17."
  },
  {
   "property": "C69",
   "status": "partial",
   "theorems": [
    "Fbs.Props.C69_gp_start_independent",
    "Fbs.Props.C69_gp_start_sign",
    "Fbs.Props.C69_gp_first_acceptance",
    "Fbs.Props.C69_coherent_once_accepted",
    "Fbs.Props.C69_gp_start_incoherent",
    "Fbs.Props.C69_stuck",
    "Fbs.Props.C69_image_stuck",
    "Fbs.Props.C69_gp_stuck"
   ],
   "note": "The start is not coherent (witnessed); coherence is proved from the first acceptance on, and the probability of staying at the start is bounded below."
  },
  {
   "property": "C70",
   "status": "proved",
   "theorems": [
    "Fbs.Props.C70_functions",
    "Fbs.Props.C70_mask",
    "Fbs.Props.C70_low_res",
    "Fbs.Props.C70_filter",
    "Fbs.Props.C70_csmc"
   ],
   "note": ""
  },
  {
   "property": "C71",
   "status": "partial",
   "theorems": [
    "Fbs.Props.C71_crescent",
    "Fbs.Props.C71_crescent_single",
    "Fbs.Props.C71_crescent_refuses",
    "Fbs.Props.C71_gmsb",
    "Fbs.Props.C71_gmsb_single_refused",
    "Fbs.Props.C71_auto_encoder",
    "Fbs.Props.C71_simple_refused",
    "Fbs.Props.C71_classic_single",
    "Fbs.Props.C71_res_conv",
    "Fbs.Props.C71_res_conv_make",
    "Fbs.Props.C71_res_conv_resize",
    "Fbs.Props.C71_conv_same"
   ],
   "note": "false of MNISTResConv, MNISTAutoEncoder and make_simple_st_nn (exact conditions proved)"
  },
  {
   "property": "C72",
   "status": "partial",
   "theorems": [
    "Fbs.Props.C72_simulators",
    "Fbs.Props.C72_losses",
    "Fbs.Props.C72_data",
    "Fbs.Props.C72_transitions",
    "Fbs.Props.C72_samplers",
    "Fbs.Props.C72_particles",
    "Fbs.Props.C72_gibbs_loop",
    "Fbs.Props.C72_gibbs_init_not_fresh"
   ],
   "note": "Proved for all simulators, losses, data sets and experiment samplers. Fails for the toy gibbs_init, which calls the backward smoother (C25): C72_gibbs_init_not_fresh."
  },
  {
   "property": "C73",
   "status": "proved",
   "theorems": [
    "Fbs.Props.C73_bridge",
    "Fbs.Props.C73_coupling",
    "Fbs.Props.C73_drift"
   ],
   "note": "Divergence is Mathlib's klDiv. The eigendecomposition and Cholesky routines are taken with their documented equations, as in C36. The passage from the conditional velocity to the solution of the SDE in continuous time is not formalised; C36 gives the mean and covariance equations."
  },
  {
   "property": "C74",
   "status": "proved",
   "theorems": [
    "Fbs.Props.C74_reversal",
    "Fbs.Props.C74_score",
    "Fbs.Props.C74_reverse_velocity",
    "Fbs.Props.C74_reference_posDef",
    "Fbs.Props.C74_filter",
    "Fbs.Props.C74_observations",
    "Fbs.Props.C74_start_law",
    "Fbs.Props.C74_keys"
   ],
   "note": ""
  },
  {
   "property": "C75",
   "status": "proved",
   "theorems": [
    "Fbs.Props.C75_pythagoras",
    "Fbs.Props.C75_minimiser",
    "Fbs.Props.C75_vectorised",
    "Fbs.Props.C75_disc"
   ],
   "note": ""
  },
  {
   "property": "C76",
   "status": "partial",
   "theorems": [
    "Fbs.Props.C76_epoch",
    "Fbs.Props.C76_tail",
    "Fbs.Props.C76_keys_partial",
    "Fbs.Props.C76_steps_fresh",
    "Fbs.Props.C76_not_fresh",
    "Fbs.Props.C76_ref_not_fresh",
    "Fbs.Props.C76_loss_keys",
    "Fbs.Props.C76_times",
    "Fbs.Props.C76_learns",
    "Fbs.Props.C76_losses",
    "Fbs.Props.C76_dispersion",
    "Fbs.Props.C76_fwd_sim",
    "Fbs.Props.C76_rev_sim",
    "Fbs.Props.C76_rev_sim_not",
    "Fbs.Props.C76_ipf"
   ],
   "note": "Freshness of the keys is false of the scripts (C76_not_fresh, C76_ref_not_fresh: the permutation and the reference samples use keys that are split again); proved instead that no key is drawn from twice. rev_sim leaves [0, T] (C76_rev_sim_not); the interval it stays in is proved."
  },
  {
   "property": "C77",
   "status": "proved",
   "theorems": [
    "Fbs.Props.C77_unbiased",
    "Fbs.Props.C77_mean_error",
    "Fbs.Props.C77_psd",
    "Fbs.Props.C77_affine",
    "Fbs.Props.C77_zero",
    "Fbs.Props.C77_floor",
    "Fbs.Props.C77_chains",
    "Fbs.Props.C77_pooled",
    "Fbs.Props.C77_contours",
    "Fbs.Props.C77_report",
    "Fbs.Props.C77_contours_stuck"
   ],
   "note": "The factorisations eigh and cho_factor are assumed to satisfy their defining equations, as in C41 and C42. The skewness and kurtosis, which are computed but not printed, are not modelled."
  },
  {
   "property": "C78",
   "status": "partial",
   "theorems": [
    "Fbs.Props.C78_psnr",
    "Fbs.Props.C78_clipped",
    "Fbs.Props.C78_tensor_partial",
    "Fbs.Props.C78_tensor_transposed",
    "Fbs.Props.C78_tensor_counterexample"
   ],
   "note": "The docstring of to_torch_tensor is false: swapaxes(-1, 0) gives (1, c, w, h), the tensor of the transposed image; C78_tensor_transposed says for which images the two agree and C78_tensor_counterexample gives one where they do not. SSIM and LPIPS themselves are not modelled."
  },
  {
   "property": "C79",
   "status": "proved",
   "theorems": [
    "Fbs.Props.C79_schemes",
    "Fbs.Props.C79_systematic_error",
    "Fbs.Props.C79_systematic_not_small",
    "Fbs.Props.C79_estimate",
    "Fbs.Props.C79_likelihood",
    "Fbs.Props.C79_filter",
    "Fbs.Props.C79_probability",
    "Fbs.Props.C79_uniform_index",
    "Fbs.Props.C79_pmcmc_estimate",
    "Fbs.Props.C79_pmcmc_likelihood",
    "Fbs.Props.C79_pmcmc_filter"
   ],
   "note": "The likelihood has to be bounded above, as Gaussian transition densities of the backward model are; the constants grow exponentially in the number of steps."
  },
  {
   "property": "C80",
   "status": "partial",
   "theorems": [
    "Fbs.Props.C80_smoothing_weights",
    "Fbs.Props.C80_transition_density_partial",
    "Fbs.Props.C80_not_smoothing",
    "Fbs.Props.C80_gibbs_init",
    "Fbs.Props.C80_gibbs_init_law",
    "Fbs.Props.C80_gibbs_init_keys"
   ],
   "note": "The smoother of the code does not target the smoothing law (C80_not_smoothing); proved for weights with the likelihood of the next observation and, for the code, when the likelihood does not depend on the state."
  },
  {
   "property": "C81",
   "status": "proved",
   "theorems": [
    "Fbs.Props.C81_trained",
    "Fbs.Props.C81_forward",
    "Fbs.Props.C81_reverse",
    "Fbs.Props.C81_end",
    "Fbs.Props.C81_start"
   ],
   "note": "Fokker-Planck equations in the classical pointwise sense; that a diffusion with this drift has these marginals (uniqueness for the equation) is not formalised. The discretisation is not part of this property."
  },
  {
   "property": "C82",
   "status": "proved",
   "theorems": [
    "Fbs.Props.C82_killing_spreads",
    "Fbs.Props.C82_multinomial_spreads",
    "Fbs.Props.C82_csmc_minorisation",
    "Fbs.Props.C82_gibbs_minorisation",
    "Fbs.Props.C82_gibbs_final_minorisation",
    "Fbs.Props.C82_gibbs_forgets",
    "Fbs.Props.C82_gibbs_final_forgets",
    "Fbs.Props.C82_gibbs_converges",
    "Fbs.Props.C82_gibbs_final_converges",
    "Fbs.Props.C82_pinned_rate_pos",
    "Fbs.Props.C82_ref_rate_pos",
    "Fbs.Props.C82_gibbs_limit",
    "Fbs.Props.C82_gibbs_final_limit",
    "Fbs.Props.C82_one_particle_stuck",
    "Fbs.Props.C82_pinned_stuck"
   ],
   "note": "The rate decays exponentially with the number of steps; it is a qualitative bound, not a sharp one. Convergence (4) is for marg_y=False, where C14, C15 and C58 give the invariance; with explicit_final=True the target is that of C15."
  },
  {
   "property": "C83",
   "status": "proved",
   "theorems": [
    "Fbs.Props.C83_pmcmc_minorisation",
    "Fbs.Props.C83_pmcmc_forgets",
    "Fbs.Props.C83_pmcmc_converges",
    "Fbs.Props.C83_rate_pos",
    "Fbs.Props.C83_rate_eq",
    "Fbs.Props.C83_rate_ge",
    "Fbs.Props.C83_posterior_converges",
    "Fbs.Props.C83_posterior_limit",
    "Fbs.Props.C83_image_converges"
   ],
   "note": "Independent proposals only (delta=None). With Crank-Nicolson proposals the moves are local and no uniform rate holds in general; invariance for them is C21. The posterior part needs exchangeable resampling, as in C21."
  },
  {
   "property": "C84",
   "status": "proved",
   "theorems": [
    "Fbs.Props.C84_estimate",
    "Fbs.Props.C84_weighted_mean",
    "Fbs.Props.C84_probability",
    "Fbs.Props.C84_draw",
    "Fbs.Props.C84_conditional_sampler",
    "Fbs.Props.C84_guided_unbounded"
   ],
   "note": "Needs bounded incremental weights; C84_guided_unbounded shows that the guided proposals of the scripts can violate this, so for them only the unbiasedness of C23 and C63 is proved. Systematic resampling is excluded as in C79."
  },
  {
   "property": "C85",
   "status": "proved",
   "theorems": [
    "Fbs.Props.C85_mnist",
    "Fbs.Props.C85_mnist_error",
    "Fbs.Props.C85_cifar",
    "Fbs.Props.C85_cifar_flat",
    "Fbs.Props.C85_celeba_partition",
    "Fbs.Props.C85_celeba_count",
    "Fbs.Props.C85_leak",
    "Fbs.Props.C85_leak_count",
    "Fbs.Props.C85_no_leak",
    "Fbs.Props.C85_leak_experiment",
    "Fbs.Props.C85_restore",
    "Fbs.Props.C85_mnist_restore",
    "Fbs.Props.C85_celeba_shape",
    "Fbs.Props.C85_data_key",
    "Fbs.Props.C85_base_reshape"
   ],
   "note": "The law of jax.random.permutation is the ideal uniform one, and different seeds are taken to give independent permutations; both are in the trusted base. The leak (4) and the lost reshape (2) are defects of the code, proved as such."
  },
  {
   "property": "C86",
   "status": "proved",
   "theorems": [
    "Fbs.Props.C86_law",
    "Fbs.Props.C86_converges",
    "Fbs.Props.C86_forward",
    "Fbs.Props.C86_reverse",
    "Fbs.Props.C86_reverse_exact",
    "Fbs.Props.C86_csgm",
    "Fbs.Props.C86_csgm_exact_iff",
    "Fbs.Props.C86_csgm_biased",
    "Fbs.Props.C86_bridge",
    "Fbs.Props.C86_substeps",
    "Fbs.Props.C86_reverse_substeps"
   ],
   "note": "Grids start at 0, as in the scripts; sub-steps are covered by C86_substeps and C86_reverse_substeps (only the total number of steps matters). Drifts that are not affine in the state (neural scores) are not covered."
  },
  {
   "property": "C87",
   "status": "proved",
   "theorems": [
    "Fbs.Props.C87_end_to_end_substeps",
    "Fbs.Props.C87_end_to_end",
    "Fbs.Props.C87_girsanov",
    "Fbs.Props.C87_path",
    "Fbs.Props.C87_last",
    "Fbs.Props.C87_same_law",
    "Fbs.Props.C87_score",
    "Fbs.Props.C87_score_uniform"
   ],
   "note": "The finite-grid bounds are for one integration step per interval and need no assumption on the data; more sub-steps reduce to them by C33_refinement_law_partial. The end-to-end bound is for normal data and the grid of the experiments, with any number of sub-steps."
  },
  {
   "property": "C88",
   "status": "proved",
   "theorems": [
    "Fbs.Props.C88_smoothing",
    "Fbs.Props.C88_filtering",
    "Fbs.Props.C88_particle_filter",
    "Fbs.Props.C88_score",
    "Fbs.Props.C88_score_particle_filter"
   ],
   "note": "The bound is on average over the observations, weighted by their density under the exact drift; nothing is claimed at a single observation path. Conditional SMC and the Gibbs sampler with the functions of b' leave the smoothing law of b' invariant (C10, C59), so (1) bounds their asymptotic error."
  },
  {
   "property": "C89",
   "status": "proved",
   "theorems": [
    "Fbs.Props.C89_only_observations",
    "Fbs.Props.C89_euler",
    "Fbs.Props.C89_separable_euler",
    "Fbs.Props.C89_separable_linear",
    "Fbs.Props.C89_images",
    "Fbs.Props.C89_path_bound",
    "Fbs.Props.C89_guess_bound",
    "Fbs.Props.C89_guess_matters",
    "Fbs.Props.C89_forget_final",
    "Fbs.Props.C89_forget",
    "Fbs.Props.C89_filter_samples"
   ],
   "note": "(4) is for one Euler step per interval, as in the experiment. (5) has the hypotheses of C82: log potentials bounded above and a noising whose law of the observations is minorised uniformly in x0."
  },
  {
   "property": "C90",
   "status": "proved",
   "theorems": [
    "Fbs.Props.C90_weights",
    "Fbs.Props.C90_resize_range",
    "Fbs.Props.C90_resize_ramp",
    "Fbs.Props.C90_resize_odd",
    "Fbs.Props.C90_resize_even",
    "Fbs.Props.C90_interp_range",
    "Fbs.Props.C90_random_range",
    "Fbs.Props.C90_random_law",
    "Fbs.Props.C90_blank",
    "Fbs.Props.C90_interp_ramp"
   ],
   "note": "jax.image.resize is modelled after JAX's compute_weight_mat in real arithmetic. C90_resize_even is the negative half of (2)."
  },
  {
   "property": "C91",
   "status": "proved",
   "theorems": [
    "Fbs.Props.C91_gibbs_error",
    "Fbs.Props.C91_gibbs_final_error",
    "Fbs.Props.C91_gibbs_drift",
    "Fbs.Props.C91_gibbs_final_drift",
    "Fbs.Props.C91_gibbs_stationary",
    "Fbs.Props.C91_gibbs_final_stationary",
    "Fbs.Props.C91_near_likelihood",
    "Fbs.Props.C91_near_likelihood_final"
   ],
   "note": "The number of particles does not enter (1); it enters (2) through the rate of C82."
  },
  {
   "property": "C92",
   "status": "proved",
   "theorems": [
    "Fbs.Props.C92_joint_drift",
    "Fbs.Props.C92_transition_density",
    "Fbs.Props.C92_reference_law",
    "Fbs.Props.C92_drift",
    "Fbs.Props.C92_score"
   ],
   "note": "The statement for the scripts' functions has explicit_backward=False: with explicit_backward=True the general theorem asks that no weight reaches the threshold of force_move (C12), which unbounded Gaussian likelihoods do not guarantee."
  },
  {
   "property": "C93",
   "status": "proved",
   "theorems": [
    "Fbs.Props.C93_gibbs_averages",
    "Fbs.Props.C93_gibbs_final_averages",
    "Fbs.Props.C93_gibbs_consistent",
    "Fbs.Props.C93_gibbs_final_consistent",
    "Fbs.Props.C93_pmcmc_averages",
    "Fbs.Props.C93_pmcmc_posterior_averages",
    "Fbs.Props.C93_pmcmc_consistent",
    "Fbs.Props.C93_keys",
    "Fbs.Props.C93_stratified_wrong_limit"
   ],
   "note": "marg_y=False. The Gibbs theorems ask that the law of the two paths is a Markov kernel in the state. The pMCMC theorems have delta=None, as C83."
  },
  {
   "property": "C94",
   "status": "proved",
   "theorems": [
    "Fbs.Props.C94_nell_ge",
    "Fbs.Props.C94_nell_le",
    "Fbs.Props.C94_nell_consistent",
    "Fbs.Props.C94_logEll_le",
    "Fbs.Props.C94_logEll_ge",
    "Fbs.Props.C94_logEll_consistent",
    "Fbs.Props.C94_acceptance",
    "Fbs.Props.C94_nell_biased"
   ],
   "note": "The lower bound and the acceptance bounds need only an upper bound of the log-likelihoods; the bound on the bias needs both."
  },
  {
   "property": "C95",
   "status": "proved",
   "theorems": [
    "Fbs.Props.C95_csmc_multinomial",
    "Fbs.Props.C95_multinomial",
    "Fbs.Props.C95_stratified_le",
    "Fbs.Props.C95_killing_le",
    "Fbs.Props.C95_systematic_worse",
    "Fbs.Props.C95_killing_uniform"
   ],
   "note": "The errors compare the unconditional branches (`conditional=False` in the csmc module)."
  },
  {
   "property": "C96",
   "status": "proved",
   "theorems": [
    "Fbs.Props.C96_jump",
    "Fbs.Props.C96_moves",
    "Fbs.Props.C96_square_jump",
    "Fbs.Props.C96_degenerate"
   ],
   "note": "Weights in the degenerate branch (above the threshold, not one) are excluded; C96_degenerate shows that they have to be."
  },
  {
   "property": "C97",
   "status": "proved",
   "theorems": [
    "Fbs.Props.C97_csmc_ideal_at",
    "Fbs.Props.C97_csmc_ideal",
    "Fbs.Props.C97_gibbs_ideal",
    "Fbs.Props.C97_gibbs_final_ideal",
    "Fbs.Props.C97_csmc_limit_at",
    "Fbs.Props.C97_csmc_limit"
   ],
   "note": "The backward pass of csmc_kernel is outside the claim, and so is systematic resampling, whose conditional version is not exact."
  },
  {
   "property": "C98",
   "status": "partial",
   "theorems": [
    "Fbs.Props.C98_entries",
    "Fbs.Props.C98_same_images",
    "Fbs.Props.C98_resume_repeats",
    "Fbs.Props.C98_resume_wrong",
    "Fbs.Props.C98_resume_law",
    "Fbs.Props.C98_keys"
   ],
   "note": "Images and keys of one run are proved (keys for calls that use only keys derived from theirs). The claim about resumed runs is false: C98_resume_wrong; `key` is not advanced for skipped images, so image s+j gets the keys of image j (C98_resume_repeats). C98_resume_law: by itself a resumed run still has the right law."
  },
  {
   "property": "C99",
   "status": "partial",
   "theorems": [
    "Fbs.Props.C99_image",
    "Fbs.Props.C99_filter",
    "Fbs.Props.C99_gibbs",
    "Fbs.Props.C99_init_lost",
    "Fbs.Props.C99_ids_repeat",
    "Fbs.Props.C99_ids_law",
    "Fbs.Props.C99_keys"
   ],
   "note": "Image, arrays, keys of one run and law of one run are proved. The last sentence is false: all starts write `gibbs-init`, so only that of the last start survives (C99_init_lost; C99_gibbs says which), and what is stored depends on the seed and the image only, so runs for different images share their random numbers (C99_ids_repeat)."
  },
  {
   "property": "C100",
   "status": "proved",
   "theorems": [
    "Fbs.Props.C100_cifar",
    "Fbs.Props.C100_cifar_range",
    "Fbs.Props.C100_cifar_lossless",
    "Fbs.Props.C100_cifar_read",
    "Fbs.Props.C100_cifar_short",
    "Fbs.Props.C100_cifar_single",
    "Fbs.Props.C100_half_weights",
    "Fbs.Props.C100_celeba_range",
    "Fbs.Props.C100_celeba_bytes",
    "Fbs.Props.C100_half_ramp",
    "Fbs.Props.C100_half_flip"
   ],
   "note": "jax.image.resize is transcribed as in C90; reading the pickled and jpeg files is outside the model."
  },
  {
   "property": "C101",
   "status": "partial",
   "theorems": [
    "Fbs.Props.C101_nan_iff",
    "Fbs.Props.C101_lag_zero",
    "Fbs.Props.C101_range",
    "Fbs.Props.C101_affine",
    "Fbs.Props.C101_reverse",
    "Fbs.Props.C101_random_order",
    "Fbs.Props.C101_img_curve",
    "Fbs.Props.C101_toy_curve",
    "Fbs.Props.C101_toy_defined",
    "Fbs.Props.C101_toy_nan",
    "Fbs.Props.C101_not_one_variable"
   ],
   "note": "The last sentence is false: the minimum (maximum) is taken at each lag separately, and for two variables and four samples neither curve is that of one of the variables (C101_not_one_variable). The other sentences are proved. numpyro's autocorrelation is transcribed from its definition (sums of products of centred samples, computed there with an FFT)."
  },
  {
   "property": "C102",
   "status": "proved",
   "theorems": [
    "Fbs.Props.C102_lower",
    "Fbs.Props.C102_wasserstein",
    "Fbs.Props.C102_triangle",
    "Fbs.Props.C102_expectation",
    "Fbs.Props.C102_square"
   ],
   "note": "The eigendecomposition is a parameter meeting the specification of eigh (IsEigh). Only the branch of sqrtm the function uses (eigh) is modelled."
  },
  {
   "property": "C103",
   "status": "proved",
   "theorems": [
    "Fbs.Props.C103_csmc_reversible",
    "Fbs.Props.C103_csmc_positive",
    "Fbs.Props.C103_gibbs_reversible",
    "Fbs.Props.C103_gibbs_final_reversible",
    "Fbs.Props.C103_gibbs_positive",
    "Fbs.Props.C103_gibbs_final_positive",
    "Fbs.Props.C103_gibbs_autocovariance",
    "Fbs.Props.C103_gibbs_final_autocovariance",
    "Fbs.Props.C103_gibbs_forced_autocovariance",
    "Fbs.Props.C103_gibbs_final_forced_autocovariance",
    "Fbs.Props.C103_gibbs_samples_no_better_than_independent",
    "Fbs.Props.C103_gibbs_final_samples_no_better_than_independent"
   ],
   "note": "Exact backward law as in C13 and C14 (BackwardExact, ReferenceExact); the paths drawn by the kernel have a Markov kernel (PathsKer). Functions are non-negative; positivity is stated for pairs f, g as <f,Pg> + <g,Pf> <= <f,Pf> + <g,Pg>. Real arithmetic. Backward sampling (backward=True of csmc_kernel) and marg_y are not covered."
  },
  {
   "property": "C104",
   "status": "proved",
   "theorems": [
    "Fbs.Props.C104_pmcmc_reversible",
    "Fbs.Props.C104_pmcmc_positive",
    "Fbs.Props.C104_pmcmc_autocovariance",
    "Fbs.Props.C104_pmcmc_samples_no_better_than_independent",
    "Fbs.Props.C104_pmcmc_pcn_reversible",
    "Fbs.Props.C104_pmcmc_pcn_positive",
    "Fbs.Props.C104_pmcmc_pcn_autocovariance",
    "Fbs.Props.C104_pmcmc_pcn_samples_no_better_than_independent"
   ],
   "note": "The autocovariance theorems assume the extended target has finite mass, which C83 gives when the likelihoods are bounded. Functions are non-negative; positivity is stated for pairs f, g as <f,Pg> + <g,Pf> <= <f,Pf> + <g,Pg>. The target is not normalised, so its mass appears as a factor. Real arithmetic."
  },
  {
   "property": "C105",
   "status": "proved",
   "theorems": [
    "Fbs.Props.C105_same_target",
    "Fbs.Props.C105_fewer_moves",
    "Fbs.Props.C105_moves_close",
    "Fbs.Props.C105_one_step",
    "Fbs.Props.C105_asymptotic_variance",
    "Fbs.Props.C105_proposals"
   ],
   "note": "The ideal chain (exactStep) is a specification, not code. The comparison is for functions of the path; the particle drawn with it is not part of the state of the ideal chain. Functions are non-negative and the target is not normalised, so its mass Z appears as a factor. The quantitative bounds concern one step. Real arithmetic."
  },
  {
   "property": "C106",
   "status": "proved",
   "theorems": [
    "Fbs.Props.C106_bounded_factors",
    "Fbs.Props.C106_moves",
    "Fbs.Props.C106_asymptotic_variance"
   ],
   "note": "The ideal chain (exactStep) is a specification, not code. Functions are non-negative and the target is not normalised, so its mass Z appears as a factor. Real arithmetic."
  },
  {
   "property": "C107",
   "status": "proved",
   "theorems": [
    "Fbs.Props.C107_gibbs_correlation",
    "Fbs.Props.C107_gibbs_final_correlation",
    "Fbs.Props.C107_gibbs_asymptotic_variance",
    "Fbs.Props.C107_gibbs_final_asymptotic_variance"
   ],
   "note": "explicit_backward=False and marg_y=False. The ideal step (idealPinned, idealRef) is a specification, not code. Functions are non-negative and the target is not normalised, so its mass appears as a factor. Real arithmetic."
  },
  {
   "property": "C108",
   "status": "proved",
   "theorems": [
    "Fbs.Props.C108_index",
    "Fbs.Props.C108_gibbs_correlation",
    "Fbs.Props.C108_gibbs_final_correlation",
    "Fbs.Props.C108_gibbs_discounted",
    "Fbs.Props.C108_gibbs_final_discounted"
   ],
   "note": "marg_y=False. The chain with the forced move can have negative autocovariances, so the comparison is of discounted sums rather than of sums of truncated differences as in C107. C96_degenerate shows that the degenerate branch must be excluded. Real arithmetic."
  },
  {
   "property": "C109",
   "status": "proved",
   "theorems": [
    "Fbs.Props.C109_csmc_autocovariance",
    "Fbs.Props.C109_csmc_asymptotic_variance",
    "Fbs.Props.C109_keys"
   ],
   "note": "backward=False; with backward=True the target is not invariant in general (see the counterexample of C11). The test redraws the observations between the calls, the chain here keeps them. Real arithmetic."
  },
  {
   "property": "C110",
   "status": "proved",
   "theorems": [
    "Fbs.Props.C110_test_fails",
    "Fbs.Props.C110_prior_kept",
    "Fbs.Props.C110_keys",
    "Fbs.Props.C110_own_state_fails",
    "Fbs.Props.C110_test_functions",
    "Fbs.Props.C110_test_shifted"
   ],
   "note": "backward=False. The claim of the test (observations at their own states) is false: refuted by C110_own_state_fails for a coin and by C110_test_fails for the functions of the test with two times and many particles; for the eleven times and ten particles of the test, and for the size of its bias against its tolerances, nothing is decided. Real arithmetic."
  },
  {
   "property": "C111",
   "status": "proved",
   "theorems": [
    "Fbs.Props.C111_discretisation",
    "Fbs.Props.C111_posDef",
    "Fbs.Props.C111_prior",
    "Fbs.Props.C111_gibbs"
   ],
   "note": "backward=False for the loop. For the observations the test itself draws (at their own states) see C110. Real arithmetic."
  },
  {
   "property": "C112",
   "status": "proved",
   "theorems": [
    "Fbs.Props.C112_keys",
    "Fbs.Props.C112_first_row",
    "Fbs.Props.C112_rows_late",
    "Fbs.Props.C112_rows_fail",
    "Fbs.Props.C112_transition_logpdf"
   ],
   "note": "The laws are for backward=False. For the eleven times and ten particles of the test the failure is not decided. The burn-in and the empirical moments taken afterwards are not modelled. Real arithmetic."
  }
 ]
}