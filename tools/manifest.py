#!/usr/bin/env python3
"""Source of /verif/MANIFEST.json (run: python3 tools/manifest.py)."""
import json, os
C = {}
def c(pid, status, theorems, note=""):
    C[pid] = dict(property=pid, status=status, theorems=theorems.split(), note=note)
c("C01", "proved", "C01_multinomial_pin C01_killing_pin C01_possible")
c("C02", "proved", "C02_multinomial_conditional C02_multinomial_pointwise C02_multinomial_marginal")
c("C03", "proved", "C03_killing_conditional C03_rotated_marginal C03_killing_pointwise C03_killing_mass")
c("C04", "proved", "C04_killing_unbiased")
c("C05", "proved", "C05_killing_uniform C05_killing_uniform_conditional")
c("C06", "proved", "C06_normalize_isProb C06_normalize_log_space C06_normalize_ratio C06_normalize_shift")
c("C07", "proved", "C07_barker_law C07_barker_invariant C07_barker_reversible C07_barker_alpha")
c("C08", "partial", "C08_force_reversible_partial C08_force_invariant_partial C08_force_support C08_force_guard_not_reversible C08_force_guard_not_invariant", "The claim is proved for weight vectors for which neither 1e-12 threshold of the code fires. When one fires the claim is false of the code, and the negation is proved with a witness.")
c("C09", "proved", "C09_force_degenerate_stay C09_force_degenerate_move C09_force_tv_bound")
c("C10", "partial", "C10_force_alpha_wrong C10_force_alpha_upper_partial C10_force_alpha_exact_partial", "The second return value is the actual move probability only when the uniform test can never reject (N = 1 or all weights equal); the negation of the general claim is proved with a witness, and the returned value is proved to be an upper bound.")
c("C11", "partial", "C11_log_1_m_exp_value C11_log_1_m_exp_wrong C11_log_1_m_exp_partial", "The exact returned value log(exp(max arr) - exp x) is proved; it equals log(1 - exp x) only for arrays whose maximum is 0, and the negation of the general claim is proved with a witness.")
c("C12", "proved", "C12_forward_retains pins_multinomial pins_killing C12_aux_particles C12_rw_ancestors C12_al_ancestors C12_l_ancestors C12_als_ancestors", "")
c("C13", "proved", "C13_scanning_genealogy C13_sampling_assembled C13_kernel_assembled C13_als_sampling_assembled")
c("C14", "proved", "C14_flags_sound C14_rw_flags_sound C14_al_flags_sound C14_l_flags_sound C14_tp_flags_sound C14_atp_flags_sound C14_t_atp_flags_sound C14_als_flags_sound", "Also for al_csmc_s; for atp_csmc_s it is false (C29).")
c("C15", "proved", "C15_C16_csmc_invariant C15_csmc_scanning_invariant C15_csmc_scanning_invariant_multinomial", "Hypothesis on the model: proposal log-densities are those of the samplers (ProperFK). For the ancestor move: leaves the weights invariant (proved for barker_move; force_move does so only up to its 1e-12 guards, see C08 and C09).")
c("C16", "proved", "C15_C16_csmc_invariant C16_csmc_sampling_invariant C16_csmc_sampling_invariant_multinomial", "Same hypotheses as C15.")
c("C17", "proved", "C17_unconditional_ignores C17_resampling_ignores")
c("C18", "proved", "C18_csmc_additive_constants C18_rw_additive_constants")
c("C20", "proved", "C20_guard C20_rw_finite", "jnp.isfinite is an arbitrary predicate in the model: the model computes with real numbers, and the guard is proved correct for values of any type and any predicate.")
c("C21", "proved", "C21_rw_invariant C21_rw_invariant_killing_barker C21_rw_invariant_multinomial_barker", "Ancestor move: any that leaves the weights invariant (proved for barker_move).")
c("C22", "proved", "C22_al_invariant C22_al_invariant_killing_barker C22_al_invariant_multinomial_barker", "Ancestor move: any that leaves the weights invariant (proved for barker_move).")
c("C23", "proved", "C23_l_invariant C23_l_invariant_killing_barker C23_l_invariant_multinomial_barker", "Ancestor move: any that leaves the weights invariant (proved for barker_move).")
c("C24", "proved", "C24_al_eq_rw C24_l_eq_rw")
c("C46","proved","C46_update_bounds C46_routine_traced C46_t_routine_traced C46_tp_routine_traced C46_csmc_bounds C46_twisted_bounds C46_tp_bounds C46_csmc_final C46_csmc_kernel_args C46_tp_kernel_args C46_twisted_kernel_args","All three adaptation routines (mcmc_utils, tp, t_atp_csmc_f): after every iteration, for every execution; and the kernel is only ever called with step sizes in bounds.")
c("C47","proved","C47_frozen C47_dead_zone C47_update C47_increase C47_decrease C47_relative_change","Exact update rule in all branches, strict monotone direction, bound on the relative change.")
c("C48","proved","C48_csmc_window C48_twisted_window C48_tp_window","For every execution of the three routines; window_size >= 1.")
c("C49","proved","C49_length C49_sampling C49_sampling_last C49_tp_sampling C49_tp_sampling_last","Program equalities, hence for every key.")
c("C50","proved","C50_chain C50_tp_sampling C50_sampling C50_csmc_sampling C62_csmc_sampling C62_rw_sampling C62_l_sampling C62_al_sampling C62_tp_sampling C62_atp_sampling C62_t_sampling","General kernels, and the concrete kernels (killing, Barker, both backward passes), also from fixed initial indices; atp_csmc_f and t_atp_csmc_f under the conditions of C34 and C57.")
c("C42","proved","C42_init C42_mala C42_tp C42_imh C42_adaptation C42_chain C42_mala_chain C42_tp_chain C42_imh_chain C42_mala_adaptation","Every execution, any number of steps, any step-size sequence.")
c("C43","proved","C43_mala C43_tp C43_imh","Every execution of the three kernels.")
c("C44","proved","C44_mala C44_mala_run C44_mala_sampling C44_tp C44_tp_run C44_tp_sampling C44_imh C44_imh_run C44_imh_sampling C44_lgssm_tp C44_lgssm_mala C44_lgssm_imh C44_sv_tp C44_sv_mala C44_sv_mala_experiment","Total-variation error at most 3e-12 per iteration, which accounts for the guard of force_move (with it exact invariance is false, see C08); both values of auxiliary; P0 and Qs positive definite, log_pdf and its gradient measurable.")
c("C45","proved","C45_zero_gradient C45_weights","Both the auxiliary and the marginal weights.")
c("C51","proved","C51_transparent C51_complete C51_progress C51_stepInputs","Every number of iterations; the callbacks are recorded in order in an event log.")
c("C52","proved","C52_als C52_atps C52_tp_csmc C52_atp C52_t_atp C52_multinomial C52_killing C52_force_move C52_barker_move C52_csmc C52_rw C52_al C52_l C52_mala C52_tp C52_imh C52_adaptation C52_t_adaptation C52_tp_adaptation C52_sampling C52_tp_sampling","Every execution of every kernel and driver.")
c("C38","proved","C38_update C38_evidence C38_predict","Bayes rule pointwise, posterior covariance positive definite, evidence as an integral; also the prediction step.")
c("C39","proved","C39_filtering C39_filtering0 C39_evidence C39_prior","Joint law of all N backward samples, both observation conventions of the filter; ell is the log normalising constant; prior_sampling too.")
c("C40","proved","C40_smoothing","Law of every time marginal of every backward sample; covariances positive definite.")
c("C41","proved","C41_chol_inv C41_value C41_unnormalised C41_normalised C41_rvs C41_norm_logpdf","Lower triangular factor with nonzero diagonal entries of any sign.")
c("C30","proved","C30_log_H C30_others","log_H is the log-density of the remaining particles given the auxiliary variable, in the Gaussian marginal model; covariances positive definite.")
c("C31","proved","C31_bis C31_mala C31_l","The three simplified log_H agree with the general one up to constants that do not depend on the particle.")
c("C32","proved","C32_params C32_conditional C32_gain floor_inactive","Proposal parameters from any singular value decomposition; floor 1e-15 on the eigenvalues inactive.")
c("C33","proved","C33_false C33_false_diagonal C33_M0_iff C33_Mt_iff C33_isotropic","The property is FALSE of the code (chol_inv is transposed): negation proved for Q = [[2,1],[1,2]] and any svd and for diag(1,2) with decreasing singular values; the exact condition under which it holds is proved (Q = diagonal of its singular values), in particular isotropic Q.")
c("C34","partial","C34_flat_iff C34_false_correlated C34_false C34_false_independent C34_atp_invariant_partial C34_atp_invariant_isotropic_partial","FALSE of the code in general: for one time step, a flat potential and the Barker move the kernel is invariant exactly if the covariance is the diagonal of its singular values in the order of svd (any dimension, any number of particles, any resampling), so it is not for correlated coordinates nor for independent coordinates with increasing variances. Invariance proved for any T, any potentials, any resampling and any reversible move when every covariance is the diagonal of its singular values (e.g. isotropic).")
c("C35","proved","C35_tp_invariant C35_tp_invariant_killing_barker C35_tp_invariant_multinomial_barker","Any conditional resampling and any reversible last move; nonlinear mu; any functions as gradients.")
c("C36","partial","C36_false C36_false_shift C36_false_drift C36_reversed_dynamics_partial C36_one_step_iff C36_reversal_exists_unique C36_scalar_partial C36_diagonal_partial","FALSE of the code: negation proved for a random walk with drift and for a non-symmetric F without drift. True under conditions satisfied by F = phi I (or diagonal models) with m0 = 0 and b = 0; for T = 2 the conditions are also necessary. The right reversed dynamics exist and are unique.")
c("C37","proved","C37_make_proposal","Every positive definite P and rev_Q; chol_E is the Cholesky factor of E.")
c("C57","partial","C57_invariant_rev C57_invariant_partial C57_invariant_scalar_killing_barker C57_invariant_scalar_multinomial_barker C57_invariant_iff C57_false","FALSE of the code: with the Barker move and bounded potentials the kernel leaves its target invariant exactly when its reversed dynamics are right (C57_invariant_iff), and for a random walk with drift it does not, whatever the number of particles and the step sizes (C57_false). Holds when C36 does, in particular for F = phi I, b = 0, m0 = 0.")
c("C19","proved","C19_lgssm C19_sv C19_lgssm_proper C19_sv_proper","Also: the weights are the Gaussian log-likelihoods, and the proposals are drawn from the densities subtracted.")
c("C53","partial","C53_lgssm_false C53_lgssm_log C53_stochastic_volatility","FALSE of lgssm get_data (negation proved for all arguments: init_key is consumed twice on every run); proved of stochastic volatility get_data.")
c("C54","partial","C54_false C54_mean_iff C54_covariance C54_partial","FALSE of the code for nu != 0, phi != 0 (b = mu + F mu): negation proved; the covariance part and the case nu = 0 used by the experiment are proved.")
c("C55","partial","C55_lgssm_mala C55_lgssm_gamma C55_lgssm_tp_csmc C55_lgssm_tp C55_sv_gamma C55_sv_tp_csmc C55_sv_tp C55_sv_mala_target C55_sv_mala_false C44_sv_mala_experiment","Proved for all kernels of lgssm and all kernels of stochastic volatility but MALA, for which it is FALSE: negation proved for all data, and what it targets instead.")
c("C56","partial","C56_lgssm_dispatch C56_lgssm_grid C56_lgssm_nodup C56_sv_dispatch C56_sv_false C56_sv_grid_partial C56_values C56_shapes C56_makers C56_gradients C56_scaling","Proved for lgssm, with the numbers, constructors, shapes and scalings of the step sizes; FALSE of stochastic volatility distribute.py (negation proved; the exact list of rejected and never-run configurations).")
c("C58","proved","C58_lgssm_csmc C58_lgssm_rw C58_lgssm_mala_csmc C58_lgssm_tp_csmc C58_lgssm_twisted C58_sv_csmc C58_sv_rw C58_sv_mala_csmc C58_sv_tp_csmc C58_sv_twisted goodResampling goodMove","Style smoothing is not covered, nor style filtering of TP_CSMC in the stochastic volatility experiment, where its condition (C33) fails for rho != 0.")
c("C59","partial","C59_false C59_iff C59_value","FALSE of the code for rho > 0, D >= 2: solve(assume_a='pos') reads only the upper triangle of the lower factor; negation proved on every run, and the exact condition.")
c("C60","proved","C60_lgssm_init","")
c("C61","proved","C61_move C61_csmc C61_rw C61_al C61_l C61_tp C61_atp C61_t_atp C61_lgssm_csmc C61_lgssm_rw C61_lgssm_mala_csmc C61_lgssm_tp_csmc C61_lgssm_twisted C61_sv_csmc C61_sv_rw C61_sv_mala_csmc C61_sv_tp_csmc C61_sv_twisted C61_chain C61_csmc_sampling","atp_csmc_f and t_atp_csmc_f under the conditions of C34 and C57.")
c("C25","proved","C25_al_csmc_s C25_atp_csmc_s C25_full_gradient","The model has T >= 3 (for T = 2 the code's arrays have different shapes).")
c("C26","partial","C26_al_csmc_s_partial C26_al_csmc_s_false C26_atp_csmc_s_partial C26_atp_csmc_s_false","FALSE of the code at time 1 (x0 is resampled twice); the other entries are right; negation for every model and particle array with two distinct particles at time 0.")
c("C27","partial","C27_al_csmc_s_invariant_partial C27_killing_barker_partial C27_multinomial_barker_partial C27_parent_free_iff C27_repaired_invariant C27_not_invariant C27_not_invariant_killing C27_not_invariant_multinomial C27_witness_gradients C27_witness_mass","backward=False: proved. backward=True: false (C27_not_invariant: a model with three times, any number of particles, any key, both resampling schemes); proved when the increment of time 2 does not depend on the parent of time 0 (exact condition in C27_parent_free_iff); the kernel with the right parents is proved invariant.")
c("C28","proved","C28_al_csmc_s C28_atp_csmc_s C28_al_program_scanning C28_al_law","Also: al_csmc_s and al_csmc_f are then the same program (backward scanning) and have the same law (backward sampling).")
c("C29","partial","C29_false C29_not_invariant","FALSE of the code for every model: x_star is never written into the particle arrays; negation for both backward passes, every model, input and number of particles. C29_not_invariant: the kernel does not leave its target invariant for any model whose last state is independent of the others and has a bounded non-constant potential without drift (zero gradient or delta = 0 there), for every length, number of particles, key and resampling scheme.")
c("C62","proved","C62_csmc C62_csmc_labels C62_rw C62_l C62_al C62_tp C62_atp C62_atp_invariant C62_t C62_t_invariant C62_als C62_sampling_labels C62_sampling C62_csmc_sampling C62_rw_sampling C62_l_sampling C62_al_sampling C62_tp_sampling C62_atp_sampling C62_t_sampling","al_csmc_s with backward scanning; its backward sampling pass uses a wrong parent (C27). Invariance of atp_csmc_f and t_atp_csmc_f under the conditions of C34 and C57.")
c("C63","proved","C63_replicates C63_moments C63_makers C63_sigma C63_delta C63_keys C63_keys_experiment C63_errors C63_script C52_lgssm_makers","Given the data (their generator reuses a key, C53). Smoothing styles excluded from the stationarity part (C27, C29). For TP_CSMC and ADAPTED_CSMC: svd returns a decomposition of sigma^2 I and the variance of the proposal is at least 1e-15.")
c("C64","proved","C64_csmc C64_al_csmc_s C64_atp_csmc_s","For csmc: proposal log-densities that act particle by particle.")
c("C65","proved","C65_errors C65_keys C65_results C65_target_stat C65_stat_range","ESS, autocorrelations and timings are not modelled; averages over the samples for n_samples >= 1.")
c("C66","proved","C66_chains C66_run C66_experiment","Styles marginal and filtering of TP_CSMC and ADAPTED_CSMC included, for any factorisation. Style smoothing excluded.")
c("C67","proved","C67_proper C67_stationary","Excludes the filtering style of TP_CSMC and ADAPTED_CSMC, which does not keep the posterior (C34), and the smoothing style; the marginal style needs the factorisation to be a singular value decomposition (ProposalOK).")
c("C68","proved","C68_rate C68_one_step C68_csmc C68_limit C68_lgssm C68_sv C68_sv_chains","Kernel CSMC of the experiments. For killing with backward sampling the rate is zero: with equal weights killing gives the reference particle no second child.")
c("C69","proved","C69_sv_data C69_lgssm_data C69_sv_posterior C69_lgssm_posterior C69_sv_converges","The two draws of the linear Gaussian get_data are taken as independent; the code makes them with one key (C53).")
c("C70","proved","C70_csmc C70_rw C70_l C70_al C70_tp C70_atp C70_t C70_als","Uniqueness is for the Barker move: the forced move does not leave the target exactly invariant (C09).")
c("C71","proved","C71_csmc C71_rw C71_l C71_al C71_tp C71_atp C71_t C71_als C71_lgssm C71_lgssm_tp C71_sv","Fixed starts: almost all of them, not every one.")
c("C72","proved","C72_defined C72_lag_zero C72_affine C72_perm C72_ess C72_ess_formula C72_save","functions of tensorflow_probability modelled after their documentation")
c("C73","proved","C73_unbiased C73_stationary C73_within C73_sv","")
c("C74","proved","C74_tables C74_samples C74_order C74_per_second","")
c("C75","partial","C75_names C75_runnable C75_families C75_columns C75_panels C75_targets C75_files_partial C75_missing C75_overwrite","false of the code: C75_missing is the negation, C75_files_partial says exactly which files are missing; the rest is proved")
c("C76","proved","C76_moves C76_csmc C76_rw C76_al C76_l C76_als C76_tp C76_atp C76_t_atp","backward=False (with backward sampling reversibility is not claimed). atp_csmc_f and t_atp_csmc_f under the conditions of C34 and C57.")
c("C77","proved","C77_moves C77_force_false C77_csmc C77_rw C77_al C77_l C77_als C77_tp C77_atp C77_t_atp","C77_force_false: the claim without the 1e-12 is false of force_move.")
c("C78","proved","C78_csmc C78_rw C78_al C78_l C78_als C78_tp C78_atp C78_t_atp","")
c("C79","proved","C79_csmc C79_rw C79_al C79_l C79_als C79_tp C79_atp C79_t_atp","Barker move, backward=False; atp_csmc_f and t_atp_csmc_f under the conditions of C34 and C57.")
c("C80","proved","C80_csmc C80_rw C80_al C80_l C80_als C80_tp C80_atp C80_t_atp","Barker move, backward=False; atp_csmc_f and t_atp_csmc_f under the conditions of C34 and C57. Monotonicity needs a finite second moment.")
c("C81","proved","C81_mala C81_tp C81_imh C81_lgssm C81_sv_tp","Error 2 * 3e-12 in total variation on pairs of states; the exact Metropolised Gibbs selection is exactly reversible (mala_exact_pair, tp_exact_pair, imh_exact_pair).")
c("C82","proved","C82_mala C82_tp C82_imh C82_sharp C82_lgssm","At most one invariant law; existence is not claimed (C44 gives near-invariance of the target). C82_sharp: without proposals every law is invariant.")
c("C83","proved","C83_csmc C83_lgssm C83_sv C83_sv_chains C83_imh_rate C83_imh C83_lgssm_imh","Strengthens C68 (error growing with the number of steps) when the rate is positive (C68_rate, C83_imh_rate); for rate 0 the bound says nothing.")
c("C84","proved","C84_csmc C84_lgssm C84_sv C84_imh C84_lgssm_imh","For conditional SMC the law of trajectories for fixed reference indices, and the trajectory marginal of any invariant joint law.")
c("C85","proved","C85_csmc C85_consistent C85_lgssm C85_sv_chains C85_imh C85_lgssm_imh","The bound is informative when the rate is positive (C68_rate, C83_imh_rate).")
c("C86","proved","C86_csmc C86_rw C86_l C86_al C86_tp C86_atp C86_t C86_als","Trajectory laws; the law of the indices given the trajectory is not claimed to be unique.")
c("C87","proved","C87_code_f C87_code_s C87_right_iff C87_repaired_f C87_exact_f C87_repaired_s C87_exact_s C87_scanning_s","The repaired kernels are the model of the code with three steps as parameters (Spec/RepairedAgrad).")
c("C88","proved","C88_uniform C88_two C88_degenerate C88_stationary","The test of marginalisation is C30_log_H.")
c("C89","partial","C89_names C89_overwrite C89_overwrite_false C89_jobs C89_runs C89_options C89_files C89_sv_partial C89_sv_false C89_sv_files","False for stochastic_volatility, whose array has 8 of 56 jobs (C89_sv_false, C89_sv_partial), and for runs that differ in options left out of the file name (C89_overwrite_false). True for the array of lgssm_scaling.")
c("C90","proved","C90_al_proposals C90_l_proposals C90_als_proposals C90_rw_proposals","Step sizes of the drift nonnegative; al_csmc_s for three or more time steps.")
c("C91","proved","C91_lg_gradients C91_lg_potential_gradients C91_lg_likelihood_gradient C91_lg_pdf_gradient C91_lg_mala_proposals C91_lg_rw_proposals C91_lg_smoothing_proposals C91_lg_tp_smoothing C91_sv_gradients C91_sv_potential_gradients C91_sv_likelihood_gradient C91_sv_mala_proposals C91_sv_rw_proposals C91_sv_smoothing_proposals C91_sv_tp_smoothing","")
c("C92", "proved", "C92_resampling C92_one_step C92_chain C92_csmc C92_limit C92_any_one_step C92_any_chain C92_any_csmc C92_any_limit C92_lgssm C92_lgssm_all C92_lgssm_any C92_scale C92_any_scale C92_sv C92_sv_all C92_sv_chains C92_sv_chains_all C92_sv_any",
  "For multinomial resampling or without backward sampling a step loses E and i steps lose E^i; for killing with backward sampling i+1 steps lose E*(2E)^i, which is below the one-step bound once the one-step bound is below one half.")
c("C93", "partial", "C93_lgssm_scanning C93_lgssm_repaired C93_sv_scanning C93_sv_repaired C93_lgssm_not_dominated C93_lgssm_not_invariant C93_lgssm_default C93_lgssm_near_default C93_lgssm_long_not_dominated C93_lgssm_near_default_all C93_lgssm_default_all",
  "Invariance proved with backward=False and for the repaired kernel. FALSE of the code with backward=True (the default): C93_lgssm_default_all, for every number of observations from three on (1000 in the experiment), every dimension, number of particles and data set. The failure is proved for parameters near the defaults (or with a witness), and not for stochastic volatility.")
c("C94","proved","C94_tables C94_reload C94_reload_labels C94_reload_lengths C94_energy_trace C94_energy_acf C94_delta C94_acceptance_rate C94_merge C94_trajectory C94_ess C94_ess_time","Lines and error bands of every figure, from the arrays of the files; colours, axes and titles are not modelled.")
c("C95","proved","C95_same C95_proper C95_evidence C95_law C95_bounded C95_sv_start multinomial_unbiased killing_unbiased","Exact for every number of particles. Without backward sampling the last index is drawn with barker_move (force_move from index 0 is not a draw from the weights).")
c("C96","proved","C96_same C96_samples C96_averages C96_warmup C96_first_adaptation stepRange_adapt sv_mixture","Barker move. The law after the adaptation is a finite mixture over the step sizes, each part with a density, so the results for frozen step sizes apply. For TP_CSMC and ADAPTED_CSMC with style marginal the factorisation has to be right for the step sizes in [1e-5, 10].")
c("C97","proved","C97_reported svOff_sub svPosterior_sq svPosterior_int","Convergence in probability, jointly over times and components of a chain.")
c("C98", "proved", "C98_limits C98_acceptance C98_acf", "Auto-correlations as computed by tfp.stats.auto_correlation, modelled in Model/Diagnostics. The effective sample sizes of tfp (a sum over all lags of the run) are not covered.")
c("C99", "proved", "C99_compare C99_samples C99_reported C99_acceptance C99_acf", "Limits of acceptance rates and auto-correlations are those of the kernel without the guard. The error grows with the length of the run, as the move with the guard does not keep the posterior (C08, C61).")
c("C100", "proved", "C100_compare C100_samples C100_reported C100_acceptance C100_acf C100_limits",
  "The law of MALA is the posterior of the model without dynamics (C55, a disagreement with the other kernels); with that law the claim is proved in full.")
c("C101","proved","C101_finite C101_reported C101_compare C101_default C101_barker","The smoothing styles are excluded (they do not keep the posterior, C93). Stated for every observed series; the generator of the series reuses a key (C53), so nothing is averaged over it.")
c("C102","proved","C102_moments C102_limits C102_barker C102_default C102_one","With one chain the estimate of the code is NaN (a variance between chains with zero degrees of freedom), so at least two are assumed.")
c("C103","proved","C103_resampling C103_trajectory C103_second C103_variance C103_relative C103_limit C103_scale C103_sv_start C103_sv_any","")
c("C104","proved","C104_imh C104_imh_limit C104_independent C104_jump C104_marginal C104_smoother C104_data C104_limit C104_kernels C104_report C104_kalman","")
c("C105","proved","C105_mala C105_mala_average C105_tp C105_tp_average C105_lgssm_mala C105_lgssm_tp C105_sv C105_target","")
c("C106","proved","C106_rw C106_al C106_l C106_lgssm C106_sv_step C106_sv C106_target","")
c("C107","proved","C107_rw C107_al C107_l C107_lgssm C107_sv_step C107_sv C107_target C107_missed","")
c("C108","proved","C108_rw C108_lgssm C108_sv_step C108_sv C108_target C108_bracket","")
c("C109","proved","C109_mala C109_rw C109_lgssm C109_sv C109_bracket","")
c("C110","proved","C110_al C110_l C110_lgssm C110_sv_step C110_sv C110_target C110_bracket","")
c("C111","proved","C111_mala C111_rw C111_lgssm C111_sv","")
c("C112","proved","C112_arrays C112_arrays_smooth C112_arrays_three C112_stride C112_scan C112_csmc_forward C112_csmc_backward C112_csmc_scanning C112_shape C112_csmc_times C112_smooth_forward C112_smooth_reads C112_smooth_times C112_two C112_routine","The error for T = 2 is a disagreement with what the kernel promises (DESIGN.md, section 3).")
#END
if __name__ == "__main__":
    root = os.path.join(os.path.dirname(os.path.abspath(__file__)), "..")
    ids = [json.loads(l)["id"] for l in open(os.path.join(root, "properties.jsonl"))]
    assert set(C) <= set(ids)
    with open(os.path.join(root, "MANIFEST.json"), "w") as f:
        json.dump({"claims": [C[i] for i in ids if i in C]}, f, indent=1)
    print("missing:", [i for i in ids if i not in C])
