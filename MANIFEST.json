{
 "claims": [
  {
   "property": "C01",
   "status": "proved",
   "theorems": [
    "C01_multinomial_pin",
    "C01_killing_pin",
    "C01_possible"
   ],
   "note": ""
  },
  {
   "property": "C02",
   "status": "proved",
   "theorems": [
    "C02_multinomial_conditional",
    "C02_multinomial_pointwise",
    "C02_multinomial_marginal"
   ],
   "note": ""
  },
  {
   "property": "C03",
   "status": "proved",
   "theorems": [
    "C03_killing_conditional",
    "C03_rotated_marginal",
    "C03_killing_pointwise",
    "C03_killing_mass"
   ],
   "note": ""
  },
  {
   "property": "C04",
   "status": "proved",
   "theorems": [
    "C04_killing_unbiased"
   ],
   "note": ""
  },
  {
   "property": "C05",
   "status": "proved",
   "theorems": [
    "C05_killing_uniform",
    "C05_killing_uniform_conditional"
   ],
   "note": ""
  },
  {
   "property": "C06",
   "status": "proved",
   "theorems": [
    "C06_normalize_isProb",
    "C06_normalize_log_space",
    "C06_normalize_ratio",
    "C06_normalize_shift"
   ],
   "note": ""
  },
  {
   "property": "C07",
   "status": "proved",
   "theorems": [
    "C07_barker_law",
    "C07_barker_invariant",
    "C07_barker_reversible",
    "C07_barker_alpha"
   ],
   "note": ""
  },
  {
   "property": "C08",
   "status": "partial",
   "theorems": [
    "C08_force_reversible_partial",
    "C08_force_invariant_partial",
    "C08_force_support",
    "C08_force_guard_not_reversible",
    "C08_force_guard_not_invariant"
   ],
   "note": "The claim is proved for weight vectors for which neither 1e-12 threshold of the code fires. When one fires the claim is false of the code, and the negation is proved with a witness."
  },
  {
   "property": "C09",
   "status": "proved",
   "theorems": [
    "C09_force_degenerate_stay",
    "C09_force_degenerate_move",
    "C09_force_tv_bound"
   ],
   "note": ""
  },
  {
   "property": "C10",
   "status": "partial",
   "theorems": [
    "C10_force_alpha_wrong",
    "C10_force_alpha_upper_partial",
    "C10_force_alpha_exact_partial"
   ],
   "note": "The second return value is the actual move probability only when the uniform test can never reject (N = 1 or all weights equal); the negation of the general claim is proved with a witness, and the returned value is proved to be an upper bound."
  },
  {
   "property": "C11",
   "status": "partial",
   "theorems": [
    "C11_log_1_m_exp_value",
    "C11_log_1_m_exp_wrong",
    "C11_log_1_m_exp_partial"
   ],
   "note": "The exact returned value log(exp(max arr) - exp x) is proved; it equals log(1 - exp x) only for arrays whose maximum is 0, and the negation of the general claim is proved with a witness."
  },
  {
   "property": "C12",
   "status": "proved",
   "theorems": [
    "C12_forward_retains",
    "pins_multinomial",
    "pins_killing",
    "C12_aux_particles",
    "C12_rw_ancestors",
    "C12_al_ancestors",
    "C12_l_ancestors",
    "C12_als_ancestors"
   ],
   "note": ""
  },
  {
   "property": "C13",
   "status": "proved",
   "theorems": [
    "C13_scanning_genealogy",
    "C13_sampling_assembled",
    "C13_kernel_assembled",
    "C13_als_sampling_assembled"
   ],
   "note": ""
  },
  {
   "property": "C14",
   "status": "proved",
   "theorems": [
    "C14_flags_sound",
    "C14_rw_flags_sound",
    "C14_al_flags_sound",
    "C14_l_flags_sound",
    "C14_tp_flags_sound",
    "C14_atp_flags_sound",
    "C14_t_atp_flags_sound",
    "C14_als_flags_sound"
   ],
   "note": "Also for al_csmc_s; for atp_csmc_s it is false (C29)."
  },
  {
   "property": "C15",
   "status": "proved",
   "theorems": [
    "C15_C16_csmc_invariant",
    "C15_csmc_scanning_invariant",
    "C15_csmc_scanning_invariant_multinomial"
   ],
   "note": "Hypothesis on the model: proposal log-densities are those of the samplers (ProperFK). For the ancestor move: leaves the weights invariant (proved for barker_move; force_move does so only up to its 1e-12 guards, see C08 and C09)."
  },
  {
   "property": "C16",
   "status": "proved",
   "theorems": [
    "C15_C16_csmc_invariant",
    "C16_csmc_sampling_invariant",
    "C16_csmc_sampling_invariant_multinomial"
   ],
   "note": "Same hypotheses as C15."
  },
  {
   "property": "C17",
   "status": "proved",
   "theorems": [
    "C17_unconditional_ignores",
    "C17_resampling_ignores"
   ],
   "note": ""
  },
  {
   "property": "C18",
   "status": "proved",
   "theorems": [
    "C18_csmc_additive_constants",
    "C18_rw_additive_constants"
   ],
   "note": ""
  },
  {
   "property": "C19",
   "status": "proved",
   "theorems": [
    "C19_lgssm",
    "C19_sv",
    "C19_lgssm_proper",
    "C19_sv_proper"
   ],
   "note": "Also: the weights are the Gaussian log-likelihoods, and the proposals are drawn from the densities subtracted."
  },
  {
   "property": "C20",
   "status": "proved",
   "theorems": [
    "C20_guard",
    "C20_rw_finite"
   ],
   "note": "jnp.isfinite is an arbitrary predicate in the model: the model computes with real numbers, and the guard is proved correct for values of any type and any predicate."
  },
  {
   "property": "C21",
   "status": "proved",
   "theorems": [
    "C21_rw_invariant",
    "C21_rw_invariant_killing_barker",
    "C21_rw_invariant_multinomial_barker"
   ],
   "note": "Ancestor move: any that leaves the weights invariant (proved for barker_move)."
  },
  {
   "property": "C22",
   "status": "proved",
   "theorems": [
    "C22_al_invariant",
    "C22_al_invariant_killing_barker",
    "C22_al_invariant_multinomial_barker"
   ],
   "note": "Ancestor move: any that leaves the weights invariant (proved for barker_move)."
  },
  {
   "property": "C23",
   "status": "proved",
   "theorems": [
    "C23_l_invariant",
    "C23_l_invariant_killing_barker",
    "C23_l_invariant_multinomial_barker"
   ],
   "note": "Ancestor move: any that leaves the weights invariant (proved for barker_move)."
  },
  {
   "property": "C24",
   "status": "proved",
   "theorems": [
    "C24_al_eq_rw",
    "C24_l_eq_rw"
   ],
   "note": ""
  },
  {
   "property": "C25",
   "status": "proved",
   "theorems": [
    "C25_al_csmc_s",
    "C25_atp_csmc_s",
    "C25_full_gradient"
   ],
   "note": "The model has T >= 3 (for T = 2 the code's arrays have different shapes)."
  },
  {
   "property": "C26",
   "status": "partial",
   "theorems": [
    "C26_al_csmc_s_partial",
    "C26_al_csmc_s_false",
    "C26_atp_csmc_s_partial",
    "C26_atp_csmc_s_false"
   ],
   "note": "FALSE of the code at time 1 (x0 is resampled twice); the other entries are right; negation for every model and particle array with two distinct particles at time 0."
  },
  {
   "property": "C27",
   "status": "partial",
   "theorems": [
    "C27_al_csmc_s_invariant_partial",
    "C27_killing_barker_partial",
    "C27_multinomial_barker_partial",
    "C27_parent_free_iff",
    "C27_repaired_invariant",
    "C27_not_invariant",
    "C27_not_invariant_killing",
    "C27_not_invariant_multinomial",
    "C27_witness_gradients",
    "C27_witness_mass"
   ],
   "note": "backward=False: proved. backward=True: false (C27_not_invariant: a model with three times, any number of particles, any key, both resampling schemes); proved when the increment of time 2 does not depend on the parent of time 0 (exact condition in C27_parent_free_iff); the kernel with the right parents is proved invariant."
  },
  {
   "property": "C28",
   "status": "proved",
   "theorems": [
    "C28_al_csmc_s",
    "C28_atp_csmc_s",
    "C28_al_program_scanning",
    "C28_al_law"
   ],
   "note": "Also: al_csmc_s and al_csmc_f are then the same program (backward scanning) and have the same law (backward sampling)."
  },
  {
   "property": "C29",
   "status": "partial",
   "theorems": [
    "C29_false",
    "C29_not_invariant"
   ],
   "note": "FALSE of the code for every model: x_star is never written into the particle arrays; negation for both backward passes, every model, input and number of particles. C29_not_invariant: the kernel does not leave its target invariant for any model whose last state is independent of the others and has a bounded non-constant potential without drift (zero gradient or delta = 0 there), for every length, number of particles, key and resampling scheme."
  },
  {
   "property": "C30",
   "status": "proved",
   "theorems": [
    "C30_log_H",
    "C30_others"
   ],
   "note": "log_H is the log-density of the remaining particles given the auxiliary variable, in the Gaussian marginal model; covariances positive definite."
  },
  {
   "property": "C31",
   "status": "proved",
   "theorems": [
    "C31_bis",
    "C31_mala",
    "C31_l"
   ],
   "note": "The three simplified log_H agree with the general one up to constants that do not depend on the particle."
  },
  {
   "property": "C32",
   "status": "proved",
   "theorems": [
    "C32_params",
    "C32_conditional",
    "C32_gain",
    "floor_inactive"
   ],
   "note": "Proposal parameters from any singular value decomposition; floor 1e-15 on the eigenvalues inactive."
  },
  {
   "property": "C33",
   "status": "proved",
   "theorems": [
    "C33_false",
    "C33_false_diagonal",
    "C33_M0_iff",
    "C33_Mt_iff",
    "C33_isotropic"
   ],
   "note": "The property is FALSE of the code (chol_inv is transposed): negation proved for Q = [[2,1],[1,2]] and any svd and for diag(1,2) with decreasing singular values; the exact condition under which it holds is proved (Q = diagonal of its singular values), in particular isotropic Q."
  },
  {
   "property": "C34",
   "status": "partial",
   "theorems": [
    "C34_flat_iff",
    "C34_false_correlated",
    "C34_false",
    "C34_false_independent",
    "C34_atp_invariant_partial",
    "C34_atp_invariant_isotropic_partial"
   ],
   "note": "FALSE of the code in general: for one time step, a flat potential and the Barker move the kernel is invariant exactly if the covariance is the diagonal of its singular values in the order of svd (any dimension, any number of particles, any resampling), so it is not for correlated coordinates nor for independent coordinates with increasing variances. Invariance proved for any T, any potentials, any resampling and any reversible move when every covariance is the diagonal of its singular values (e.g. isotropic)."
  },
  {
   "property": "C35",
   "status": "proved",
   "theorems": [
    "C35_tp_invariant",
    "C35_tp_invariant_killing_barker",
    "C35_tp_invariant_multinomial_barker"
   ],
   "note": "Any conditional resampling and any reversible last move; nonlinear mu; any functions as gradients."
  },
  {
   "property": "C36",
   "status": "partial",
   "theorems": [
    "C36_false",
    "C36_false_shift",
    "C36_false_drift",
    "C36_reversed_dynamics_partial",
    "C36_one_step_iff",
    "C36_reversal_exists_unique",
    "C36_scalar_partial",
    "C36_diagonal_partial"
   ],
   "note": "FALSE of the code: negation proved for a random walk with drift and for a non-symmetric F without drift. True under conditions satisfied by F = phi I (or diagonal models) with m0 = 0 and b = 0; for T = 2 the conditions are also necessary. The right reversed dynamics exist and are unique."
  },
  {
   "property": "C37",
   "status": "proved",
   "theorems": [
    "C37_make_proposal"
   ],
   "note": "Every positive definite P and rev_Q; chol_E is the Cholesky factor of E."
  },
  {
   "property": "C38",
   "status": "proved",
   "theorems": [
    "C38_update",
    "C38_evidence",
    "C38_predict"
   ],
   "note": "Bayes rule pointwise, posterior covariance positive definite, evidence as an integral; also the prediction step."
  },
  {
   "property": "C39",
   "status": "proved",
   "theorems": [
    "C39_filtering",
    "C39_filtering0",
    "C39_evidence",
    "C39_prior"
   ],
   "note": "Joint law of all N backward samples, both observation conventions of the filter; ell is the log normalising constant; prior_sampling too."
  },
  {
   "property": "C40",
   "status": "proved",
   "theorems": [
    "C40_smoothing"
   ],
   "note": "Law of every time marginal of every backward sample; covariances positive definite."
  },
  {
   "property": "C41",
   "status": "proved",
   "theorems": [
    "C41_chol_inv",
    "C41_value",
    "C41_unnormalised",
    "C41_normalised",
    "C41_rvs",
    "C41_norm_logpdf"
   ],
   "note": "Lower triangular factor with nonzero diagonal entries of any sign."
  },
  {
   "property": "C42",
   "status": "proved",
   "theorems": [
    "C42_init",
    "C42_mala",
    "C42_tp",
    "C42_imh",
    "C42_adaptation",
    "C42_chain",
    "C42_mala_chain",
    "C42_tp_chain",
    "C42_imh_chain",
    "C42_mala_adaptation"
   ],
   "note": "Every execution, any number of steps, any step-size sequence."
  },
  {
   "property": "C43",
   "status": "proved",
   "theorems": [
    "C43_mala",
    "C43_tp",
    "C43_imh"
   ],
   "note": "Every execution of the three kernels."
  },
  {
   "property": "C44",
   "status": "proved",
   "theorems": [
    "C44_mala",
    "C44_mala_run",
    "C44_mala_sampling",
    "C44_tp",
    "C44_tp_run",
    "C44_tp_sampling",
    "C44_imh",
    "C44_imh_run",
    "C44_imh_sampling",
    "C44_lgssm_tp",
    "C44_lgssm_mala",
    "C44_lgssm_imh",
    "C44_sv_tp",
    "C44_sv_mala",
    "C44_sv_mala_experiment"
   ],
   "note": "Total-variation error at most 3e-12 per iteration, which accounts for the guard of force_move (with it exact invariance is false, see C08); both values of auxiliary; P0 and Qs positive definite, log_pdf and its gradient measurable."
  },
  {
   "property": "C45",
   "status": "proved",
   "theorems": [
    "C45_zero_gradient",
    "C45_weights"
   ],
   "note": "Both the auxiliary and the marginal weights."
  },
  {
   "property": "C46",
   "status": "proved",
   "theorems": [
    "C46_update_bounds",
    "C46_routine_traced",
    "C46_t_routine_traced",
    "C46_tp_routine_traced",
    "C46_csmc_bounds",
    "C46_twisted_bounds",
    "C46_tp_bounds",
    "C46_csmc_final",
    "C46_csmc_kernel_args",
    "C46_tp_kernel_args",
    "C46_twisted_kernel_args"
   ],
   "note": "All three adaptation routines (mcmc_utils, tp, t_atp_csmc_f): after every iteration, for every execution; and the kernel is only ever called with step sizes in bounds."
  },
  {
   "property": "C47",
   "status": "proved",
   "theorems": [
    "C47_frozen",
    "C47_dead_zone",
    "C47_update",
    "C47_increase",
    "C47_decrease",
    "C47_relative_change"
   ],
   "note": "Exact update rule in all branches, strict monotone direction, bound on the relative change."
  },
  {
   "property": "C48",
   "status": "proved",
   "theorems": [
    "C48_csmc_window",
    "C48_twisted_window",
    "C48_tp_window"
   ],
   "note": "For every execution of the three routines; window_size >= 1."
  },
  {
   "property": "C49",
   "status": "proved",
   "theorems": [
    "C49_length",
    "C49_sampling",
    "C49_sampling_last",
    "C49_tp_sampling",
    "C49_tp_sampling_last"
   ],
   "note": "Program equalities, hence for every key."
  },
  {
   "property": "C50",
   "status": "proved",
   "theorems": [
    "C50_chain",
    "C50_tp_sampling",
    "C50_sampling",
    "C50_csmc_sampling",
    "C62_csmc_sampling",
    "C62_rw_sampling",
    "C62_l_sampling",
    "C62_al_sampling",
    "C62_tp_sampling",
    "C62_atp_sampling",
    "C62_t_sampling"
   ],
   "note": "General kernels, and the concrete kernels (killing, Barker, both backward passes), also from fixed initial indices; atp_csmc_f and t_atp_csmc_f under the conditions of C34 and C57."
  },
  {
   "property": "C51",
   "status": "proved",
   "theorems": [
    "C51_transparent",
    "C51_complete",
    "C51_progress",
    "C51_stepInputs"
   ],
   "note": "Every number of iterations; the callbacks are recorded in order in an event log."
  },
  {
   "property": "C52",
   "status": "proved",
   "theorems": [
    "C52_als",
    "C52_atps",
    "C52_tp_csmc",
    "C52_atp",
    "C52_t_atp",
    "C52_multinomial",
    "C52_killing",
    "C52_force_move",
    "C52_barker_move",
    "C52_csmc",
    "C52_rw",
    "C52_al",
    "C52_l",
    "C52_mala",
    "C52_tp",
    "C52_imh",
    "C52_adaptation",
    "C52_t_adaptation",
    "C52_tp_adaptation",
    "C52_sampling",
    "C52_tp_sampling"
   ],
   "note": "Every execution of every kernel and driver."
  },
  {
   "property": "C53",
   "status": "partial",
   "theorems": [
    "C53_lgssm_false",
    "C53_lgssm_log",
    "C53_stochastic_volatility"
   ],
   "note": "FALSE of lgssm get_data (negation proved for all arguments: init_key is consumed twice on every run); proved of stochastic volatility get_data."
  },
  {
   "property": "C54",
   "status": "partial",
   "theorems": [
    "C54_false",
    "C54_mean_iff",
    "C54_covariance",
    "C54_partial"
   ],
   "note": "FALSE of the code for nu != 0, phi != 0 (b = mu + F mu): negation proved; the covariance part and the case nu = 0 used by the experiment are proved."
  },
  {
   "property": "C55",
   "status": "partial",
   "theorems": [
    "C55_lgssm_mala",
    "C55_lgssm_gamma",
    "C55_lgssm_tp_csmc",
    "C55_lgssm_tp",
    "C55_sv_gamma",
    "C55_sv_tp_csmc",
    "C55_sv_tp",
    "C55_sv_mala_target",
    "C55_sv_mala_false",
    "C44_sv_mala_experiment"
   ],
   "note": "Proved for all kernels of lgssm and all kernels of stochastic volatility but MALA, for which it is FALSE: negation proved for all data, and what it targets instead."
  },
  {
   "property": "C56",
   "status": "partial",
   "theorems": [
    "C56_lgssm_dispatch",
    "C56_lgssm_grid",
    "C56_lgssm_nodup",
    "C56_sv_dispatch",
    "C56_sv_false",
    "C56_sv_grid_partial",
    "C56_values",
    "C56_shapes",
    "C56_makers",
    "C56_gradients",
    "C56_scaling"
   ],
   "note": "Proved for lgssm, with the numbers, constructors, shapes and scalings of the step sizes; FALSE of stochastic volatility distribute.py (negation proved; the exact list of rejected and never-run configurations)."
  },
  {
   "property": "C57",
   "status": "partial",
   "theorems": [
    "C57_invariant_rev",
    "C57_invariant_partial",
    "C57_invariant_scalar_killing_barker",
    "C57_invariant_scalar_multinomial_barker",
    "C57_invariant_iff",
    "C57_false"
   ],
   "note": "FALSE of the code: with the Barker move and bounded potentials the kernel leaves its target invariant exactly when its reversed dynamics are right (C57_invariant_iff), and for a random walk with drift it does not, whatever the number of particles and the step sizes (C57_false). Holds when C36 does, in particular for F = phi I, b = 0, m0 = 0."
  },
  {
   "property": "C58",
   "status": "proved",
   "theorems": [
    "C58_lgssm_csmc",
    "C58_lgssm_rw",
    "C58_lgssm_mala_csmc",
    "C58_lgssm_tp_csmc",
    "C58_lgssm_twisted",
    "C58_sv_csmc",
    "C58_sv_rw",
    "C58_sv_mala_csmc",
    "C58_sv_tp_csmc",
    "C58_sv_twisted",
    "goodResampling",
    "goodMove"
   ],
   "note": "Style smoothing is not covered, nor style filtering of TP_CSMC in the stochastic volatility experiment, where its condition (C33) fails for rho != 0."
  },
  {
   "property": "C59",
   "status": "partial",
   "theorems": [
    "C59_false",
    "C59_iff",
    "C59_value"
   ],
   "note": "FALSE of the code for rho > 0, D >= 2: solve(assume_a='pos') reads only the upper triangle of the lower factor; negation proved on every run, and the exact condition."
  },
  {
   "property": "C60",
   "status": "proved",
   "theorems": [
    "C60_lgssm_init"
   ],
   "note": ""
  },
  {
   "property": "C61",
   "status": "proved",
   "theorems": [
    "C61_move",
    "C61_csmc",
    "C61_rw",
    "C61_al",
    "C61_l",
    "C61_tp",
    "C61_atp",
    "C61_t_atp",
    "C61_lgssm_csmc",
    "C61_lgssm_rw",
    "C61_lgssm_mala_csmc",
    "C61_lgssm_tp_csmc",
    "C61_lgssm_twisted",
    "C61_sv_csmc",
    "C61_sv_rw",
    "C61_sv_mala_csmc",
    "C61_sv_tp_csmc",
    "C61_sv_twisted",
    "C61_chain",
    "C61_csmc_sampling"
   ],
   "note": "atp_csmc_f and t_atp_csmc_f under the conditions of C34 and C57."
  },
  {
   "property": "C62",
   "status": "proved",
   "theorems": [
    "C62_csmc",
    "C62_csmc_labels",
    "C62_rw",
    "C62_l",
    "C62_al",
    "C62_tp",
    "C62_atp",
    "C62_atp_invariant",
    "C62_t",
    "C62_t_invariant",
    "C62_als",
    "C62_sampling_labels",
    "C62_sampling",
    "C62_csmc_sampling",
    "C62_rw_sampling",
    "C62_l_sampling",
    "C62_al_sampling",
    "C62_tp_sampling",
    "C62_atp_sampling",
    "C62_t_sampling"
   ],
   "note": "al_csmc_s with backward scanning; its backward sampling pass uses a wrong parent (C27). Invariance of atp_csmc_f and t_atp_csmc_f under the conditions of C34 and C57."
  },
  {
   "property": "C63",
   "status": "proved",
   "theorems": [
    "C63_replicates",
    "C63_moments",
    "C63_makers",
    "C63_sigma",
    "C63_delta",
    "C63_keys",
    "C63_keys_experiment",
    "C63_errors",
    "C63_script",
    "C52_lgssm_makers"
   ],
   "note": "Given the data (their generator reuses a key, C53). Smoothing styles excluded from the stationarity part (C27, C29). For TP_CSMC and ADAPTED_CSMC: svd returns a decomposition of sigma^2 I and the variance of the proposal is at least 1e-15."
  },
  {
   "property": "C64",
   "status": "proved",
   "theorems": [
    "C64_csmc",
    "C64_al_csmc_s",
    "C64_atp_csmc_s"
   ],
   "note": "For csmc: proposal log-densities that act particle by particle."
  },
  {
   "property": "C65",
   "status": "proved",
   "theorems": [
    "C65_errors",
    "C65_keys",
    "C65_results",
    "C65_target_stat",
    "C65_stat_range"
   ],
   "note": "ESS, autocorrelations and timings are not modelled; averages over the samples for n_samples >= 1."
  },
  {
   "property": "C66",
   "status": "proved",
   "theorems": [
    "C66_chains",
    "C66_run",
    "C66_experiment"
   ],
   "note": "Styles marginal and filtering of TP_CSMC and ADAPTED_CSMC included, for any factorisation. Style smoothing excluded."
  },
  {
   "property": "C67",
   "status": "proved",
   "theorems": [
    "C67_proper",
    "C67_stationary"
   ],
   "note": "Excludes the filtering style of TP_CSMC and ADAPTED_CSMC, which does not keep the posterior (C34), and the smoothing style; the marginal style needs the factorisation to be a singular value decomposition (ProposalOK)."
  },
  {
   "property": "C68",
   "status": "proved",
   "theorems": [
    "C68_rate",
    "C68_one_step",
    "C68_csmc",
    "C68_limit",
    "C68_lgssm",
    "C68_sv",
    "C68_sv_chains"
   ],
   "note": "Kernel CSMC of the experiments. For killing with backward sampling the rate is zero: with equal weights killing gives the reference particle no second child."
  },
  {
   "property": "C69",
   "status": "proved",
   "theorems": [
    "C69_sv_data",
    "C69_lgssm_data",
    "C69_sv_posterior",
    "C69_lgssm_posterior",
    "C69_sv_converges"
   ],
   "note": "The two draws of the linear Gaussian get_data are taken as independent; the code makes them with one key (C53)."
  },
  {
   "property": "C70",
   "status": "proved",
   "theorems": [
    "C70_csmc",
    "C70_rw",
    "C70_l",
    "C70_al",
    "C70_tp",
    "C70_atp",
    "C70_t",
    "C70_als"
   ],
   "note": "Uniqueness is for the Barker move: the forced move does not leave the target exactly invariant (C09)."
  },
  {
   "property": "C71",
   "status": "proved",
   "theorems": [
    "C71_csmc",
    "C71_rw",
    "C71_l",
    "C71_al",
    "C71_tp",
    "C71_atp",
    "C71_t",
    "C71_als",
    "C71_lgssm",
    "C71_lgssm_tp",
    "C71_sv"
   ],
   "note": "Fixed starts: almost all of them, not every one."
  },
  {
   "property": "C72",
   "status": "proved",
   "theorems": [
    "C72_defined",
    "C72_lag_zero",
    "C72_affine",
    "C72_perm",
    "C72_ess",
    "C72_ess_formula",
    "C72_save"
   ],
   "note": "functions of tensorflow_probability modelled after their documentation"
  },
  {
   "property": "C73",
   "status": "proved",
   "theorems": [
    "C73_unbiased",
    "C73_stationary",
    "C73_within",
    "C73_sv"
   ],
   "note": ""
  },
  {
   "property": "C74",
   "status": "proved",
   "theorems": [
    "C74_tables",
    "C74_samples",
    "C74_order",
    "C74_per_second"
   ],
   "note": ""
  },
  {
   "property": "C75",
   "status": "partial",
   "theorems": [
    "C75_names",
    "C75_runnable",
    "C75_families",
    "C75_columns",
    "C75_panels",
    "C75_targets",
    "C75_files_partial",
    "C75_missing",
    "C75_overwrite"
   ],
   "note": "false of the code: C75_missing is the negation, C75_files_partial says exactly which files are missing; the rest is proved"
  },
  {
   "property": "C76",
   "status": "proved",
   "theorems": [
    "C76_moves",
    "C76_csmc",
    "C76_rw",
    "C76_al",
    "C76_l",
    "C76_als",
    "C76_tp",
    "C76_atp",
    "C76_t_atp"
   ],
   "note": "backward=False (with backward sampling reversibility is not claimed). atp_csmc_f and t_atp_csmc_f under the conditions of C34 and C57."
  },
  {
   "property": "C77",
   "status": "proved",
   "theorems": [
    "C77_moves",
    "C77_force_false",
    "C77_csmc",
    "C77_rw",
    "C77_al",
    "C77_l",
    "C77_als",
    "C77_tp",
    "C77_atp",
    "C77_t_atp"
   ],
   "note": "C77_force_false: the claim without the 1e-12 is false of force_move."
  },
  {
   "property": "C78",
   "status": "proved",
   "theorems": [
    "C78_csmc",
    "C78_rw",
    "C78_al",
    "C78_l",
    "C78_als",
    "C78_tp",
    "C78_atp",
    "C78_t_atp"
   ],
   "note": ""
  },
  {
   "property": "C79",
   "status": "proved",
   "theorems": [
    "C79_csmc",
    "C79_rw",
    "C79_al",
    "C79_l",
    "C79_als",
    "C79_tp",
    "C79_atp",
    "C79_t_atp"
   ],
   "note": "Barker move, backward=False; atp_csmc_f and t_atp_csmc_f under the conditions of C34 and C57."
  },
  {
   "property": "C80",
   "status": "proved",
   "theorems": [
    "C80_csmc",
    "C80_rw",
    "C80_al",
    "C80_l",
    "C80_als",
    "C80_tp",
    "C80_atp",
    "C80_t_atp"
   ],
   "note": "Barker move, backward=False; atp_csmc_f and t_atp_csmc_f under the conditions of C34 and C57. Monotonicity needs a finite second moment."
  },
  {
   "property": "C81",
   "status": "proved",
   "theorems": [
    "C81_mala",
    "C81_tp",
    "C81_imh",
    "C81_lgssm",
    "C81_sv_tp"
   ],
   "note": "Error 2 * 3e-12 in total variation on pairs of states; the exact Metropolised Gibbs selection is exactly reversible (mala_exact_pair, tp_exact_pair, imh_exact_pair)."
  },
  {
   "property": "C82",
   "status": "proved",
   "theorems": [
    "C82_mala",
    "C82_tp",
    "C82_imh",
    "C82_sharp",
    "C82_lgssm"
   ],
   "note": "At most one invariant law; existence is not claimed (C44 gives near-invariance of the target). C82_sharp: without proposals every law is invariant."
  },
  {
   "property": "C83",
   "status": "proved",
   "theorems": [
    "C83_csmc",
    "C83_lgssm",
    "C83_sv",
    "C83_sv_chains",
    "C83_imh_rate",
    "C83_imh",
    "C83_lgssm_imh"
   ],
   "note": "Strengthens C68 (error growing with the number of steps) when the rate is positive (C68_rate, C83_imh_rate); for rate 0 the bound says nothing."
  },
  {
   "property": "C84",
   "status": "proved",
   "theorems": [
    "C84_csmc",
    "C84_lgssm",
    "C84_sv",
    "C84_imh",
    "C84_lgssm_imh"
   ],
   "note": "For conditional SMC the law of trajectories for fixed reference indices, and the trajectory marginal of any invariant joint law."
  },
  {
   "property": "C85",
   "status": "proved",
   "theorems": [
    "C85_csmc",
    "C85_consistent",
    "C85_lgssm",
    "C85_sv_chains",
    "C85_imh",
    "C85_lgssm_imh"
   ],
   "note": "The bound is informative when the rate is positive (C68_rate, C83_imh_rate)."
  },
  {
   "property": "C86",
   "status": "proved",
   "theorems": [
    "C86_csmc",
    "C86_rw",
    "C86_l",
    "C86_al",
    "C86_tp",
    "C86_atp",
    "C86_t",
    "C86_als"
   ],
   "note": "Trajectory laws; the law of the indices given the trajectory is not claimed to be unique."
  },
  {
   "property": "C87",
   "status": "proved",
   "theorems": [
    "C87_code_f",
    "C87_code_s",
    "C87_right_iff",
    "C87_repaired_f",
    "C87_exact_f",
    "C87_repaired_s",
    "C87_exact_s",
    "C87_scanning_s"
   ],
   "note": "The repaired kernels are the model of the code with three steps as parameters (Spec/RepairedAgrad)."
  },
  {
   "property": "C88",
   "status": "proved",
   "theorems": [
    "C88_uniform",
    "C88_two",
    "C88_degenerate",
    "C88_stationary"
   ],
   "note": "The test of marginalisation is C30_log_H."
  },
  {
   "property": "C89",
   "status": "partial",
   "theorems": [
    "C89_names",
    "C89_overwrite",
    "C89_overwrite_false",
    "C89_jobs",
    "C89_runs",
    "C89_options",
    "C89_files",
    "C89_sv_partial",
    "C89_sv_false",
    "C89_sv_files"
   ],
   "note": "False for stochastic_volatility, whose array has 8 of 56 jobs (C89_sv_false, C89_sv_partial), and for runs that differ in options left out of the file name (C89_overwrite_false). True for the array of lgssm_scaling."
  },
  {
   "property": "C90",
   "status": "proved",
   "theorems": [
    "C90_al_proposals",
    "C90_l_proposals",
    "C90_als_proposals",
    "C90_rw_proposals"
   ],
   "note": "Step sizes of the drift nonnegative; al_csmc_s for three or more time steps."
  },
  {
   "property": "C91",
   "status": "proved",
   "theorems": [
    "C91_lg_gradients",
    "C91_lg_potential_gradients",
    "C91_lg_likelihood_gradient",
    "C91_lg_pdf_gradient",
    "C91_lg_mala_proposals",
    "C91_lg_rw_proposals",
    "C91_lg_smoothing_proposals",
    "C91_lg_tp_smoothing",
    "C91_sv_gradients",
    "C91_sv_potential_gradients",
    "C91_sv_likelihood_gradient",
    "C91_sv_mala_proposals",
    "C91_sv_rw_proposals",
    "C91_sv_smoothing_proposals",
    "C91_sv_tp_smoothing"
   ],
   "note": ""
  },
  {
   "property": "C92",
   "status": "proved",
   "theorems": [
    "C92_resampling",
    "C92_one_step",
    "C92_chain",
    "C92_csmc",
    "C92_limit",
    "C92_any_one_step",
    "C92_any_chain",
    "C92_any_csmc",
    "C92_any_limit",
    "C92_lgssm",
    "C92_lgssm_all",
    "C92_lgssm_any",
    "C92_scale",
    "C92_any_scale",
    "C92_sv",
    "C92_sv_all",
    "C92_sv_chains",
    "C92_sv_chains_all",
    "C92_sv_any"
   ],
   "note": "For multinomial resampling or without backward sampling a step loses E and i steps lose E^i; for killing with backward sampling i+1 steps lose E*(2E)^i, which is below the one-step bound once the one-step bound is below one half."
  },
  {
   "property": "C93",
   "status": "partial",
   "theorems": [
    "C93_lgssm_scanning",
    "C93_lgssm_repaired",
    "C93_sv_scanning",
    "C93_sv_repaired",
    "C93_lgssm_not_dominated",
    "C93_lgssm_not_invariant",
    "C93_lgssm_default",
    "C93_lgssm_near_default",
    "C93_lgssm_long_not_dominated",
    "C93_lgssm_near_default_all",
    "C93_lgssm_default_all"
   ],
   "note": "Invariance proved with backward=False and for the repaired kernel. FALSE of the code with backward=True (the default): C93_lgssm_default_all, for every number of observations from three on (1000 in the experiment), every dimension, number of particles and data set. The failure is proved for parameters near the defaults (or with a witness), and not for stochastic volatility."
  },
  {
   "property": "C94",
   "status": "proved",
   "theorems": [
    "C94_tables",
    "C94_reload",
    "C94_reload_labels",
    "C94_reload_lengths",
    "C94_energy_trace",
    "C94_energy_acf",
    "C94_delta",
    "C94_acceptance_rate",
    "C94_merge",
    "C94_trajectory",
    "C94_ess",
    "C94_ess_time"
   ],
   "note": "Lines and error bands of every figure, from the arrays of the files; colours, axes and titles are not modelled."
  },
  {
   "property": "C95",
   "status": "proved",
   "theorems": [
    "C95_same",
    "C95_proper",
    "C95_evidence",
    "C95_law",
    "C95_bounded",
    "C95_sv_start",
    "multinomial_unbiased",
    "killing_unbiased"
   ],
   "note": "Exact for every number of particles. Without backward sampling the last index is drawn with barker_move (force_move from index 0 is not a draw from the weights)."
  },
  {
   "property": "C96",
   "status": "proved",
   "theorems": [
    "C96_same",
    "C96_samples",
    "C96_averages",
    "C96_warmup",
    "C96_first_adaptation",
    "stepRange_adapt",
    "sv_mixture"
   ],
   "note": "Barker move. The law after the adaptation is a finite mixture over the step sizes, each part with a density, so the results for frozen step sizes apply. For TP_CSMC and ADAPTED_CSMC with style marginal the factorisation has to be right for the step sizes in [1e-5, 10]."
  },
  {
   "property": "C97",
   "status": "proved",
   "theorems": [
    "C97_reported",
    "svOff_sub",
    "svPosterior_sq",
    "svPosterior_int"
   ],
   "note": "Convergence in probability, jointly over times and components of a chain."
  },
  {
   "property": "C98",
   "status": "proved",
   "theorems": [
    "C98_limits",
    "C98_acceptance",
    "C98_acf"
   ],
   "note": "Auto-correlations as computed by tfp.stats.auto_correlation, modelled in Model/Diagnostics. The effective sample sizes of tfp (a sum over all lags of the run) are not covered."
  },
  {
   "property": "C99",
   "status": "proved",
   "theorems": [
    "C99_compare",
    "C99_samples",
    "C99_reported",
    "C99_acceptance",
    "C99_acf"
   ],
   "note": "Limits of acceptance rates and auto-correlations are those of the kernel without the guard. The error grows with the length of the run, as the move with the guard does not keep the posterior (C08, C61)."
  },
  {
   "property": "C100",
   "status": "proved",
   "theorems": [
    "C100_compare",
    "C100_samples",
    "C100_reported",
    "C100_acceptance",
    "C100_acf",
    "C100_limits"
   ],
   "note": "The law of MALA is the posterior of the model without dynamics (C55, a disagreement with the other kernels); with that law the claim is proved in full."
  },
  {
   "property": "C101",
   "status": "proved",
   "theorems": [
    "C101_finite",
    "C101_reported",
    "C101_compare",
    "C101_default",
    "C101_barker"
   ],
   "note": "The smoothing styles are excluded (they do not keep the posterior, C93). Stated for every observed series; the generator of the series reuses a key (C53), so nothing is averaged over it."
  },
  {
   "property": "C102",
   "status": "proved",
   "theorems": [
    "C102_moments",
    "C102_limits",
    "C102_barker",
    "C102_default",
    "C102_one"
   ],
   "note": "With one chain the estimate of the code is NaN (a variance between chains with zero degrees of freedom), so at least two are assumed."
  },
  {
   "property": "C103",
   "status": "proved",
   "theorems": [
    "C103_resampling",
    "C103_trajectory",
    "C103_second",
    "C103_variance",
    "C103_relative",
    "C103_limit",
    "C103_scale",
    "C103_sv_start",
    "C103_sv_any"
   ],
   "note": ""
  },
  {
   "property": "C104",
   "status": "proved",
   "theorems": [
    "C104_imh",
    "C104_imh_limit",
    "C104_independent",
    "C104_jump",
    "C104_marginal",
    "C104_smoother",
    "C104_data",
    "C104_limit",
    "C104_kernels",
    "C104_report",
    "C104_kalman"
   ],
   "note": ""
  },
  {
   "property": "C105",
   "status": "proved",
   "theorems": [
    "C105_mala",
    "C105_mala_average",
    "C105_tp",
    "C105_tp_average",
    "C105_lgssm_mala",
    "C105_lgssm_tp",
    "C105_sv",
    "C105_target"
   ],
   "note": ""
  },
  {
   "property": "C106",
   "status": "proved",
   "theorems": [
    "C106_rw",
    "C106_al",
    "C106_l",
    "C106_lgssm",
    "C106_sv_step",
    "C106_sv",
    "C106_target"
   ],
   "note": ""
  },
  {
   "property": "C107",
   "status": "proved",
   "theorems": [
    "C107_rw",
    "C107_al",
    "C107_l",
    "C107_lgssm",
    "C107_sv_step",
    "C107_sv",
    "C107_target",
    "C107_missed"
   ],
   "note": ""
  },
  {
   "property": "C108",
   "status": "proved",
   "theorems": [
    "C108_rw",
    "C108_lgssm",
    "C108_sv_step",
    "C108_sv",
    "C108_target",
    "C108_bracket"
   ],
   "note": ""
  },
  {
   "property": "C109",
   "status": "proved",
   "theorems": [
    "C109_mala",
    "C109_rw",
    "C109_lgssm",
    "C109_sv",
    "C109_bracket"
   ],
   "note": ""
  },
  {
   "property": "C110",
   "status": "proved",
   "theorems": [
    "C110_al",
    "C110_l",
    "C110_lgssm",
    "C110_sv_step",
    "C110_sv",
    "C110_target",
    "C110_bracket"
   ],
   "note": ""
  },
  {
   "property": "C111",
   "status": "proved",
   "theorems": [
    "C111_mala",
    "C111_rw",
    "C111_lgssm",
    "C111_sv"
   ],
   "note": ""
  },
  {
   "property": "C112",
   "status": "proved",
   "theorems": [
    "C112_arrays",
    "C112_arrays_smooth",
    "C112_arrays_three",
    "C112_stride",
    "C112_scan",
    "C112_csmc_forward",
    "C112_csmc_backward",
    "C112_csmc_scanning",
    "C112_shape",
    "C112_csmc_times",
    "C112_smooth_forward",
    "C112_smooth_reads",
    "C112_smooth_times",
    "C112_two",
    "C112_routine"
   ],
   "note": "The error for T = 2 is a disagreement with what the kernel promises (DESIGN.md, section 3)."
  }
 ]
}