#!/usr/bin/env python3
"""Source of /verif/properties.jsonl (run: python3 tools/props.py)."""
import json, os
P = []
def p(title, statement, quantifier, why, *anchors):
    P.append(dict(id=f"C{len(P)+1:02d}", title=title, statement=statement, quantifier=quantifier,
                  why_tests_cant=why, anchors=list(anchors)))
G = "gradient_csmc/"
# ---------------- resampling
p("Conditional resampling pins the reference ancestor",
  "multinomial(key, w, i, j) and killing(key, w, i, j) return an array whose entry j is i, and every entry is a valid particle index.",
  "every weight vector, every number of particles, every i and j, every outcome of every random draw",
  "A test samples a few seeds; the pin must hold for every draw, including every cyclic shift taken by killing.",
  G+"utils/resamplings.py:multinomial", G+"utils/resamplings.py:killing")
p("Conditional multinomial resampling is multinomial resampling conditioned on the pin",
  "The law of multinomial(w, i, j) is the law of the unconditional scheme given that entry j equals i: w[i] * P(out = a | i, j) = P_unconditional(a) * 1[a[j] = i] for every ancestor vector a.",
  "every normalised weight vector, every i, j and every ancestor vector a",
  "Equality of two probability laws on (N+1)^(N+1) outcomes cannot be settled by sampling.",
  G+"utils/resamplings.py:multinomial")
p("Conditional killing resampling is (randomly rotated) killing resampling conditioned on the pin",
  "There is one unconditional law R(a | w) - killing followed by a uniform rotation - with marginals R(a[n] = k) = w[k], such that w[i] * P(killing(w, i, j, conditional=True) = a) = R(a | w) * 1[a[j] = i].",
  "every normalised weight vector with any number of zero weights, every i, j, a",
  "The correctness of the J_prob formula is an identity of laws over all weights; seeds only sample it.",
  G+"utils/resamplings.py:killing")
p("Killing resampling is unbiased",
  "killing(w, ., ., conditional=False): the expected number of copies of particle k is N * w[k].",
  "every normalised weight vector and particle k",
  "An expectation over all outcomes for every weight vector.",
  G+"utils/resamplings.py:killing")
p("Killing does not move particles when the weights are uniform",
  "With uniform weights, killing(conditional=False) returns the identity, and killing(i, j, conditional=True) returns the rotation taking i to j (the identity if i = j), with certainty.",
  "every number of particles, every i and j, every outcome of the draws",
  "'With certainty' quantifies over all outcomes of all draws.",
  G+"utils/resamplings.py:killing")
p("normalize returns a probability vector and ignores additive constants",
  "exp(normalize(lw, log_space=True)) = normalize(lw), entries are positive, sum to one, keep the ratios exp(lw[i]-lw[j]), and normalize(lw + c) = normalize(lw).",
  "every finite log-weight vector and every constant",
  "Holds for all real vectors, of which tests only try a handful.",
  G+"utils/resamplings.py:normalize")
# ---------------- ancestor moves
p("Barker move leaves the weights invariant and reports its acceptance probability",
  "barker_move(w, k) returns l with probability w[l] whatever k is, hence leaves Cat(w) invariant, and its second output 1 - w[k] equals the probability that the returned index differs from k.",
  "every normalised weight vector and every k",
  "Statement about the law of the output for all weights.",
  G+"utils/common.py:barker_move")
p("Forced move is reversible with respect to the weights",
  "force_move(w, k) returns l with a probability P(k,l) satisfying detailed balance w[k] P(k,l) = w[l] P(l,k), so it leaves Cat(w) invariant.",
  "every normalised weight vector and every pair k, l",
  "Detailed balance is an identity of probabilities for all weight vectors.",
  G+"utils/common.py:force_move")
p("Forced move on a degenerate weight vector",
  "If w[k] = 1, force_move(w, k) returns k for every outcome of the draws; in the guarded regime w[k] >= max(1-exp(-M), 1-1e-12) the violation of invariance is at most 2e-12 in total variation.",
  "every normalised weight vector, every k, every draw",
  "The guard branch is practically never taken by random tests and the error bound ranges over all weights.",
  G+"utils/common.py:force_move")
p("The second output of force_move is the acceptance probability",
  "The alpha returned by force_move(w, k) is the probability that the returned index differs from k.",
  "every normalised weight vector and k",
  "A statement on probabilities for all weights; the shipped tests use three weight vectors on which it happens to hold.",
  G+"utils/common.py:force_move")
p("_log_1_m_exp computes log(1 - exp(a))",
  "_log_1_m_exp(arr)[i] = log(1 - exp(arr[i])) for negative inputs.",
  "every array of negative numbers",
  "Statement for all arrays.",
  G+"utils/common.py:_log_1_m_exp")
# ---------------- csmc structure
p("The conditional forward pass retains the reference trajectory",
  "After csmc.forward_pass(conditional=True): xs[t][b_star[t]] = x_star[t] for all t and As[t][b_star[t+1]] = b_star[t]. The same holds for the particle arrays used by rw_csmc, al_csmc_f, l_csmc_f and al_csmc_s.",
  "every T, N, model, reference trajectory, b_star, and every outcome of all draws, for both resampling functions",
  "Tests run a few seeds and sizes; the invariant must survive every draw at every step.",
  G+"csmc.py:forward_pass", G+"rw_csmc.py:kernel", G+"al_csmc_f.py:kernel", G+"l_csmc_f.py:kernel", G+"al_csmc_s.py:kernel")
p("The returned trajectory is assembled from the particle system at the returned indices",
  "For csmc.kernel the returned xs[t] is the particle number Bs[t] of time t, for both backward passes; with backward=False the indices follow the genealogy Bs[t-1] = As[t-1][Bs[t]].",
  "every T, N, model, input and outcome of all draws",
  "The array reversal/insertion arithmetic has to be right for every T and every draw.",
  G+"csmc.py:kernel", G+"csmc.py:backward_sampling_pass", G+"csmc.py:backward_scanning_pass")
p("Acceptance flags are sound: an unchanged index means an unchanged state",
  "If Bs[t] = b_star[t] in the output of csmc.kernel / rw_csmc / al_csmc_f / l_csmc_f / tp_csmc / atp_csmc_f / t_atp_csmc_f then xs[t] = x_star[t]; with backward=False, Bs[-1] = b_star[-1] implies the entire trajectory and all indices are unchanged.",
  "every T, N, model, input and outcome of all draws",
  "Flags 'next_bs != bs' drive step-size adaptation and the reported acceptance rates on every run.",
  G+"csmc.py:kernel", G+"utils/mcmc_utils.py:delta_adaptation_routine", G+"utils/mcmc_utils.py:sampling_routine")
p("csmc.kernel with backward=False leaves the target invariant",
  "If (x_star, b_star) has law pi x Uniform (pi proportional to Gamma_0 prod Gamma_t), so has the returned (xs, Bs), with multinomial or killing resampling and an ancestor move that leaves the final weights invariant.",
  "every T >= 1, every N, every measurable model on every sigma-finite state space",
  "Invariance is a statement about an integral over all trajectories and all draws; Monte-Carlo tests only estimate it for one model.",
  G+"csmc.py:kernel", G+"csmc.py:forward_pass", G+"csmc.py:backward_scanning_pass")
p("csmc.kernel with backward=True leaves the target invariant",
  "Same as for backward=False, with the backward sampling pass.",
  "every T >= 1, every N, every measurable model on every sigma-finite state space",
  "Same as for backward=False.",
  G+"csmc.py:kernel", G+"csmc.py:backward_sampling_pass")
p("Unconditional SMC ignores the values of the supplied trajectory",
  "csmc.kernel(conditional=False, backward=True) yields the same random computation for any two x_star, b_star of the same shape (the experiments pass the true states 'only for the shape').",
  "every pair of trajectories and index vectors, every model, T, N, every key",
  "Non-interference quantifies over pairs of inputs.",
  G+"csmc.py:kernel", "experiments/stochastic_volatility/experiment.py:one_experiment")
p("Kernels do not depend on additive constants of the log-potentials",
  "Replacing Gamma_0 by Gamma_0 + c_0 and Gamma_t by Gamma_t + c_t (any constant per time step) does not change the trajectory, indices (nor the log-weights, for csmc) returned by csmc.kernel and rw_csmc.kernel.",
  "every model, all constants, every key and input",
  "Users pass unnormalised densities (constant=False everywhere); equality is for all models and constants.",
  G+"csmc.py:kernel", G+"rw_csmc.py:kernel", G+"utils/math.py:mvn_logpdf")
p("csmc weights equal the potentials for bootstrap proposals",
  "In get_csmc_kernel(style='bootstrap') the weight Gamma_t - M_t_logpdf is exactly log_potential(x_t, y_t), for both experiments.",
  "every particle, observation and parameter",
  "Identity for all reals.",
  "experiments/lgssm_scaling/kernels.py:get_csmc_kernel", "experiments/stochastic_volatility/kernels.py:get_csmc_kernel")
# ---------------- Particle-RWM / MALA
p("Particle-RWM never returns a non-finite trajectory",
  "If x_star is finite then the trajectory returned by rw_csmc.kernel is finite; and if anything non-finite was selected, the result is exactly (x_star, b_star).",
  "every input, model (including ones returning nan or inf) and draw",
  "The guard must work for every NaN pattern.",
  G+"rw_csmc.py:kernel")
p("Particle-RWM leaves the target invariant",
  "rw_csmc.kernel leaves pi x Uniform invariant (finite log-densities, exact arithmetic), for both backward modes.",
  "every T, N, d, positive ells, measurable Gamma",
  "Integral statement over all trajectories and draws.",
  G+"rw_csmc.py:kernel")
p("Particle-aMALA leaves the target invariant",
  "al_csmc_f.kernel leaves pi x Uniform invariant for both backward modes, for any step sizes deltas (equal to ells or not) and any measurable gradient function.",
  "every T, N, d, positive ells, deltas, measurable Gamma",
  "Integral statement over all trajectories and draws.",
  G+"al_csmc_f.py:kernel")
p("Particle-MALA leaves the target invariant",
  "l_csmc_f.kernel (auxiliary variable marginalised out of the weights) leaves pi x Uniform invariant for both backward modes.",
  "every T, N, d, positive ells, deltas, measurable Gamma",
  "Integral statement over all trajectories and draws.",
  G+"l_csmc_f.py:kernel")
p("With zero gradient step Particle-MALA, Particle-aMALA and Particle-RWM are the same algorithm",
  "With deltas = 0, l_csmc_f.kernel and al_csmc_f.kernel return, for every key, the same trajectory and indices as rw_csmc.kernel (on finite data).",
  "every T, N, d, model, key, ells, and both backward modes",
  "Program equivalence for all inputs.",
  G+"rw_csmc.py:kernel", G+"al_csmc_f.py:kernel", G+"l_csmc_f.py:kernel")
p("Particle-aMALA+ weights telescope to the smoothing-gradient target",
  "Along any trajectory, the sum of the increments Gamma_0~ + Gamma_1~ + sum Gamma_t~ of al_csmc_s equals log pi(x) plus sum_t log N(u_t; x_t + delta_t/2 * grad_t log pi(x), ell_t/2) (up to constants), where grad_t is the gradient of the full log-density used to draw u. Same for atp_csmc_s with the Gaussian prior.",
  "every T >= 2, trajectory, auxiliary variables, step sizes, model",
  "Holds for every horizon T: needs induction.",
  G+"al_csmc_s.py:kernel", G+"atp_csmc_s.py:kernel")
p("Particle-aMALA+ gives the backward pass the true parents of the particles",
  "In al_csmc_s and atp_csmc_s the array xs_m_1_out handed to the backward sampling pass satisfies: entry t holds for each particle i of time t+1 the particle of time t it was propagated from.",
  "every T, every t, every outcome of the resampling",
  "Must hold for every ancestor draw at every time.",
  G+"al_csmc_s.py:kernel", G+"al_csmc_s.py:backward_sampling_pass", G+"atp_csmc_s.py:kernel")
p("Particle-aMALA+ leaves the target invariant",
  "al_csmc_s.kernel leaves pi x Uniform invariant.",
  "every T >= 2, N, d, model",
  "Integral statement over all trajectories and draws.",
  G+"al_csmc_s.py:kernel")
p("Smoothing-gradient weights reduce to filtering-gradient weights for univariate potentials",
  "If the gradient of Gamma_t (r_t) in its first argument vanishes then the al_csmc_s (atp_csmc_s) increments equal the al_csmc_f (atp_csmc_f) ones.",
  "every particle, parameter, time",
  "README claim for all models.",
  G+"al_csmc_s.py:kernel", G+"al_csmc_f.py:kernel", G+"atp_csmc_s.py:kernel", G+"atp_csmc_f.py:Gamma_t", "README.md")
p("Particle-aGRAD+ conditions on the reference trajectory",
  "atp_csmc_s.kernel keeps x_star in the particle system: if Bs[t] = b_star[t] then xs[t] = x_star[t].",
  "every T, N, model, outcome of the draws",
  "Same as the retention property of csmc.",
  G+"atp_csmc_s.py:kernel")
# ---------------- marginalisation
p("get_log_H gives the marginal Gaussian density ratios",
  "get_log_H(xs, ds, B, C^-1, E)(x_i, d_i, phi_i) - (same at j) = log q(x_-i | x_i) - log q(x_-j | x_j), q(.|x_n) the Gaussian with mean d_m + B(x_n + phi_n) and covariance C (x) I + B E B^T (x) 11^T.",
  "every N, D, particles, shifts, B, positive definite C, E, every i, j",
  "The shipped test checks six random instances of one size.",
  G+"utils/marginalisation.py:get_log_H", G+"utils/test_marginalisation.py:test")
p("The specialised log_H formulas agree with the general one",
  "tp_csmc.get_log_H_bis equals get_log_H with B = K, C = ell/2 K, E = ell/2 I; mala.get_log_H equals it with B = I, C = E = delta/2 I; and l_csmc_f's H_phi equals the latter.",
  "every N, D, particles, gradients, positive step size, invertible symmetric K commuting as in the code",
  "Algebraic identity for all matrices.",
  G+"tp_csmc.py:get_log_H_bis", G+"mala.py:get_log_H", G+"l_csmc_f.py:kernel", G+"utils/marginalisation.py:get_log_H")
# ---------------- aGRAD / mGRAD
p("aGRAD proposal parameters are those of the conditional Gaussian",
  "make_proposal(Q)(ell): K = K_1 K_2 = Q (Q + ell/2 I)^-1, chol chol^T = Q - K Q = ell/2 K, K_inv K = I, so N(x; m, Q) N(u; x, ell/2 I) is proportional in x to N(x; m + K(u-m), chol chol^T).",
  "every symmetric positive definite Q, ell > 0, m, u, x",
  "Matrix identity for all Q.",
  G+"atp_csmc_f.py:make_proposal")
p("aGRAD proposal log-density matches the proposal sampler",
  "M0_logpdf/Mt_logpdf of atp_csmc_f (used also by atp_csmc_s) are, up to a constant, the log-densities of the laws sampled by M0_rvs/Mt_rvs.",
  "every symmetric positive definite Q, ell, mean, x",
  "Must hold for every covariance, not only isotropic ones.",
  G+"atp_csmc_f.py:make_proposal", G+"atp_csmc_f.py:Mt_logpdf", G+"utils/math.py:mvn_logpdf")
p("Particle-aGRAD leaves the target invariant",
  "atp_csmc_f.kernel leaves pi x Uniform invariant, pi prop. to N(x0;m0,P0) prod N(x_t; mu(x_t-1), Q_t) exp(r).",
  "every T, N, d, model",
  "Integral statement over all trajectories and draws.",
  G+"atp_csmc_f.py:get_kernel")
p("Particle-mGRAD leaves the target invariant",
  "tp_csmc.kernel leaves the same target invariant for both backward modes.",
  "every T, N, d, model",
  "Integral statement over all trajectories and draws.",
  G+"tp_csmc.py:get_kernel")
p("Twisted aGRAD: reversed dynamics describe the same Gaussian process",
  "_get_reversed_dynamics returns the mean/covariance of x_T and conditionals N(x_t | K x_t+1 + mu, Sigma) whose product is the forward law N(x0;m0,P0) prod N(x_t+1; F x_t + b, Q).",
  "every T, d, F, b, positive definite P0, Q",
  "The shipped test uses one symmetric F and b = 0.",
  G+"t_atp_csmc_f.py:_get_reversed_dynamics", G+"t_atp_csmc_f.py:_get_gain")
p("Twisted aGRAD: make_proposal is Gaussian conditioning",
  "make_proposal returns A, c, E with N(x_t+1; m, P) N(x_t; rev_F x_t+1 + rev_b, rev_Q) = N(x_t; .) N(x_t+1; A x_t + c, E).",
  "every d, positive definite P, rev_Q, every rev_F, rev_b, x_t, x_t+1",
  "Matrix identity.",
  G+"t_atp_csmc_f.py:make_proposal")
# ---------------- kalman
p("Kalman update is Bayes' rule",
  "sequential_update(y, m, P, H, c, R) returns m', P', ell with N(x;m,P) N(y;Hx+c,R) = exp(ell) N(x;m',P'); P' is symmetric positive definite.",
  "every dimension, y, x, m, positive definite P, R, every H, c",
  "Identity of densities for all parameters.",
  G+"utils/kalman/filtering.py:sequential_update", G+"utils/math.py:mvn_logpdf")
p("Kalman filter + backward sampling is the exact posterior",
  "For filtering() followed by sampling(): prod of the backward conditionals and the last filtering law, times exp(ell), equals prior times likelihood for every trajectory; both initial-observation modes of filtering().",
  "every T, dimension, model, observations, trajectory",
  "Induction over T.",
  G+"utils/kalman/filtering.py:filtering", G+"utils/kalman/sampling.py:sampling")
p("RTS smoother agrees with the backward sampler",
  "smoothing() returns the mean and covariance of the marginals of the backward sampler's law, and symmetric covariances.",
  "every T, model",
  "Induction over T.",
  G+"utils/kalman/smoothing.py:smoothing", G+"utils/kalman/sampling.py:sampling")
p("mvn_logpdf is the same with chol and chol_inv, and is normalised",
  "mvn_logpdf(x, m, chol) = mvn_logpdf(x, m, chol, chol^-1), equals -1/2 (x-m)^T (chol chol^T)^-1 (x-m) - constant, and exp of it integrates to one.",
  "every x, m and invertible (lower-triangular) chol",
  "Statement for all matrices.",
  G+"utils/math.py:mvn_logpdf", G+"utils/math.py:_logpdf_with_inv", G+"utils/math.py:_logpdf", G+"utils/math.py:_get_constant")
# ---------------- MALA / TP / IMH
p("Cached value and gradient stay consistent along MALA / aGRAD / IMH chains",
  "Starting from init(x), after any number of kernel steps the state (x, val, grad) satisfies val = log_pdf(x), grad = grad log_pdf(x).",
  "every number of steps, every sequence of draws, every delta sequence",
  "Induction over the history of the chain.",
  G+"mala.py:kernel", G+"tp.py:get_kernel", G+"tp.py:init", G+"imh.py:get_kernel", G+"imh.py:init")
p("MALA / aGRAD / IMH accept flag is sound",
  "When the returned flag is False, the state is exactly the input state; when it is True it is one of the N proposals.",
  "every input and draw",
  "All draws.",
  G+"mala.py:kernel", G+"tp.py:get_kernel", G+"imh.py:get_kernel")
p("IMH, MALA (both acceptances) and aGRAD leave their target invariant",
  "imh, mala.kernel(auxiliary True/False) and tp kernels leave exp(log_pdf) (times the Gaussian prior for imh and tp) invariant (forced move outside its degenerate guard).",
  "every N >= 1, target, positive delta",
  "Integral statement.",
  G+"imh.py:get_kernel", G+"mala.py:kernel", G+"tp.py:get_kernel")
p("With a zero gradient the MALA kernels are random-walk Metropolis",
  "With grad = 0 (KernelType.RW: stop_gradient) both the auxiliary and the marginal weights of mala.kernel are softmax(log_pdf).",
  "every N, delta > 0, samples",
  "Identity for all reals.",
  G+"mala.py:kernel", "experiments/lgssm_scaling/kernels.py:get_mala_kernel")
# ---------------- adaptation / driver
p("Adapted step sizes always stay within [min_delta, max_delta]",
  "After every iteration of each delta_adaptation_routine every step size lies in [min_delta, max_delta].",
  "every kernel, every history of acceptances, every number of steps, every target and rate",
  "Invariant over all histories.",
  G+"utils/mcmc_utils.py:delta_adaptation_routine", G+"tp.py:delta_adaptation_routine", G+"t_atp_csmc_f.py:delta_adaptation_routine")
p("Adaptation is frozen during the first window and moves in the right direction afterwards",
  "For i <= window_size the step size is only clipped. Later it increases (up to clipping) when the windowed acceptance exceeds target+0.05, decreases when below target-0.05, and is unchanged in between, by a relative amount at most rate_i * max(1, (1-target)/target).",
  "every step index, history, target in (0,1), rates",
  "All histories.",
  G+"utils/mcmc_utils.py:delta_adaptation_routine", G+"tp.py:delta_adaptation_routine", G+"t_atp_csmc_f.py:delta_adaptation_routine")
p("The acceptance estimate is the mean over exactly the last window_size flags",
  "After i iterations the acceptance rate used at time t is the mean of the last min(i, window_size) acceptance flags of coordinate t, nothing else.",
  "every history and window size >= 1",
  "Induction over histories.",
  G+"utils/mcmc_utils.py:delta_adaptation_routine", G+"tp.py:delta_adaptation_routine", G+"t_atp_csmc_f.py:delta_adaptation_routine")
p("sampling_routine returns the iterates of the kernel, thinned",
  "samples[k] is the state after (k*g)+1 kernel applications (g = int(get_samples)), flags[k] the corresponding index changes, there are ceil(n_steps/g) of them, and get_samples=False returns the last state of the same run.",
  "every kernel, number of steps, thinning, key",
  "Induction over steps.",
  G+"utils/mcmc_utils.py:sampling_routine", G+"tp.py:sampling_routine")
p("Running the sampler for any number of steps preserves the target",
  "If the kernel leaves pi invariant then after any number of steps of sampling_routine started from pi, every returned sample has law pi.",
  "every number of steps, every invariant kernel",
  "Induction over steps of an integral statement.",
  G+"utils/mcmc_utils.py:sampling_routine")
p("The progress bar is transparent and complete",
  "progress_bar_scan(n)(body) produces the same scan result as body; the bar is created once, its updates sum to exactly n, and it is closed exactly once, at the last iteration.",
  "every number of iterations n >= 1 and every body",
  "For all n (the print rate and remainder arithmetic).",
  G+"utils/pbar.py:progress_bar_scan")
# ---------------- keys
p("Every PRNG key is consumed at most once",
  "In csmc, rw_csmc, al_csmc_f, l_csmc_f, al_csmc_s, tp, mala, imh kernels and the drivers, no key passed to a draw equals, or is an ancestor (by split) of, another key passed to a draw.",
  "every T, N, every execution",
  "For all T: the key slicing arithmetic.",
  G+"csmc.py:kernel", G+"rw_csmc.py:kernel", G+"al_csmc_f.py:kernel", G+"al_csmc_s.py:kernel", G+"mala.py:kernel", G+"utils/common.py:force_move", G+"utils/resamplings.py:killing")
p("Data generators use independent randomness for the initial state and the noise",
  "get_data of both experiments never uses the same key for two draws.",
  "every dimension and T",
  "Not visible in outputs.",
  "experiments/lgssm_scaling/model.py:get_data", "experiments/stochastic_volatility/model.py:get_data")
# ---------------- experiments
p("Stochastic volatility: the initial law is stationary for the dynamics",
  "get_dynamics returns m0, P0, F, Q, b with F m0 + b = m0 and F P0 F^T + Q = P0.",
  "every nu, phi with phi^2 != 1, tau, rho, dim",
  "For all parameters.",
  "experiments/stochastic_volatility/model.py:get_dynamics", "experiments/stochastic_volatility/model.py:stationary_covariance")
p("All kernels of one experiment target the same posterior",
  "The log-density given to MALA equals, up to a constant, the sum of Gamma_0 and Gamma_t given to the CSMC kernels, and prior + potentials given to TP/IMH/aGRAD.",
  "every trajectory, data and parameters",
  "For all trajectories and T.",
  "experiments/lgssm_scaling/model.py:log_pdf", "experiments/lgssm_scaling/kernels.py", "experiments/stochastic_volatility/model.py:log_pdf", "experiments/stochastic_volatility/kernels.py")
p("Kernel dispatch is total and the experiment grids only contain valid (kernel, style) pairs",
  "kernel_maker and shape_delta are defined on all KernelType members; each (kernel, style) pair enumerated by distribute.py is accepted by its constructor and all listed kernels are enumerated.",
  "every KernelType, every index of the grids",
  "The grid is finite but never exercised by tests; zip silently truncates.",
  "experiments/lgssm_scaling/distribute.py", "experiments/stochastic_volatility/distribute.py", "experiments/lgssm_scaling/kernels.py:KernelType", "experiments/stochastic_volatility/kernels.py:KernelType")
p("Twisted aGRAD leaves the target invariant",
  "t_atp_csmc_f.kernel leaves N(x0; m0, P0) exp(r0) prod N(x_t+1; F x_t + b, Q) exp(rt) invariant for every step sizes, gradient functions and auxiliary scales; whatever reversed dynamics it is given, it leaves the process they describe, reweighted by the potentials, invariant.",
  "every T, N, d, model, key, positive ells, deltas, resampling and move satisfying C02-C04, C07; both backward settings",
  "Statistical property over a continuum of models.",
  G+"t_atp_csmc_f.py:get_kernel", G+"t_atp_csmc_f.py:Gamma_0", G+"t_atp_csmc_f.py:Gamma_t", G+"t_atp_csmc_f.py:make_proposal")
p("The kernels of the experiments leave the posteriors of the experiments invariant",
  "With the arguments given by kernels.py, every CSMC kernel (CSMC, RW_CSMC, MALA_CSMC, TP_CSMC, ADAPTED_CSMC, styles bootstrap / filtering / marginal / twisted) leaves the joint posterior of the states given the data invariant: N(0, s^2 I), N(x, s^2 I), N(x, I) for lgssm_scaling; N(m0, P0), N(F x + b, Q), N(0, diag exp x) for stochastic_volatility.",
  "every T, N, D, data, sigma > 0 / phi^2 < 1, tau > 0, 0 <= rho < 1, positive step sizes, key, killing or multinomial resampling, Barker move; gradients by automatic differentiation",
  "Statistical property of composed code over a continuum of parameters.",
  "experiments/lgssm_scaling/kernels.py", "experiments/stochastic_volatility/kernels.py")
p("The stochastic volatility data generator returns the inverse Cholesky factors",
  "inv_chol_P0 and inv_chol_Q returned by get_data, which are used to report the energy, are the inverses of the Cholesky factors of P0 and Q.",
  "every dim, nu, phi, tau, rho",
  "Only the reported energy is affected.",
  "experiments/stochastic_volatility/model.py:get_data", "experiments/stochastic_volatility/experiment.py:one_experiment")
p("The linear Gaussian experiment starts at stationarity",
  "The M initial trajectories (Kalman filter, then backward sampling) are independent draws from the posterior of the states given the data.",
  "every T, D, M, sigma > 0, data, key",
  "Equality of laws on trajectories.",
  "experiments/lgssm_scaling/experiment.py:one_experiment")
p("Every kernel run with force_move is invariant up to 3e-12 in total variation",
  "The index law of force_move is within 3e-12 (total variation) of the Metropolised Gibbs move, which leaves the weights invariant exactly. So each CSMC kernel with force_move as last move (the default of the experiments) changes its target by at most 3e-12, and the state after m iterations of a run started from the target is within m * 3e-12 of it.",
  "every T, N, d, model, key, weights, resampling satisfying C02-C04, both backward settings, every number of iterations",
  "The error is below any statistical resolution, and its absence of growth with T and N cannot be sampled.",
  G+"utils/common.py:force_move", G+"csmc.py:kernel", "experiments/lgssm_scaling/experiment.py", "experiments/stochastic_volatility/experiment.py")
p("The indices of the reference are only labels",
  "Rotating the index vector given to a kernel (each time step by its own offset) rotates the index vector it returns in the same way and changes nothing else. Hence the joint law of the new trajectory and of the acceptance flags does not depend on the indices of the reference, one step or a whole run of sampling_routine, and the target is left invariant from any fixed index vector, in particular from the zeros that init sets.",
  "every T, N, d, model, key, step sizes, reference, index vector, resampling satisfying C02-C04 (killing, multinomial), move (Barker, forced); both backward settings; every number of samples and stride",
  "Equality of joint laws for all index vectors; a test always starts from zeros.",
  G+"csmc.py:kernel", G+"rw_csmc.py:get_kernel", G+"l_csmc_f.py:get_kernel", G+"al_csmc_f.py:get_kernel", G+"al_csmc_s.py:get_kernel", G+"tp_csmc.py:get_kernel", G+"atp_csmc_f.py:get_kernel", G+"t_atp_csmc_f.py:get_kernel", "gradient_csmc/utils/mcmc_utils.py:sampling_routine")
p("The scaling experiment averages independent stationary jumps of the selected kernel",
  "For a command line that the script accepts, given the data of one experiment, the M pairs (state, next state) behind its expected squared jump distance are independent with one common law: the first component is the posterior of the states given the data, the second one is the state after one step of the selected kernel from it, and has the same law (CSMC kernels with the Barker move) or the same law up to 3e-12. The output is the average of the squared jumps, with mean the expected squared jump and the second moment of an average of M independent terms. No key is used twice across the M chains. SIGMA^2 = 10^log_var, DELTA has the requested scaling. The script stops exactly for an unknown kernel, resampling, last step, or a style the kernel does not have.",
  "every T, D, N, M, K, seed, data, log_var, delta > 0, scaling, kernel type, style except smoothing (T >= 3 for the error part), resampling, last step, backward setting",
  "Equality of the law of the output of a whole experiment with a product law.",
  "experiments/lgssm_scaling/experiment.py", "experiments/lgssm_scaling/kernels.py:KernelType", "experiments/lgssm_scaling/experiment.py:one_experiment")
p("The log-weights are the target over the proposal along every lineage",
  "On every run of the forward passes of csmc, al_csmc_s and atp_csmc_s, the sum of log_ws along the ancestors of any particle of the last time is log(target and auxiliary variables) - log(proposal) of the trajectory these ancestors carry, up to one constant, and each resampling step is done with the probabilities proportional to the exponentials of the log-weights of its time.",
  "every T, N, d, model, auxiliary variables, step sizes, resampling function, outcome of every random draw; conditional or not for csmc",
  "Quantifies over all lineages of all runs; an error in a sign or in an index of one term leaves plausible weights.",
  G+"csmc.py:forward_pass", G+"al_csmc_s.py:kernel", G+"atp_csmc_s.py:kernel")
p("The stochastic volatility script uses fresh keys, stops exactly on unsupported options and adapts to the requested statistic",
  "For every command line: (errors) the script stops exactly for an unknown kernel, resampling or last step, a style the kernel does not have, or a target statistic that is neither a name it knows nor a percentage; (keys) no two random draws of the whole script, over the K experiments and their M chains, use the same key; (results) every saved step size lies in [1e-5, 10] if there is adaptation and is the initial one otherwise, every saved acceptance rate lies in [0, 1]; (statistic) the target statistic given on the command line is the mean, the median, the extremum or the linearly interpolated percentile of the acceptance rates over time, and always lies between two of the rates.",
  "every T, D, N, M, K, seed, tau, delta_init, numbers of samples, of burn-in and of adaptation steps, target, kernel type, style, resampling, last step, backward setting, target statistic; every outcome of the random draws",
  "A whole script with all its options; key collisions and bounds over all executions.",
  "experiments/stochastic_volatility/experiment.py", "experiments/stochastic_volatility/kernels.py:KernelType", "experiments/stochastic_volatility/experiment.py:one_experiment")
p("Restarting the chains after the burn-in does not change their law",
  "The stochastic volatility script runs the burn-in of M chains, keeps their last trajectories, and starts M new runs from them with init (index vectors set to zero, log-densities and gradients recomputed). The joint law of the returned samples and acceptance flags is that of M uninterrupted runs whose first burnin steps are dropped; the M chains are independent and identically distributed given the adapted state, and the law does not depend on the keys. The same holds for all that one_experiment returns, after initialisation and adaptation.",
  "every T, D, N, M, seed, data, tau > 0, delta_init > 0, numbers of adaptation, burn-in and sample steps, kernel type, style except smoothing, target statistic, resampling, last step, backward setting",
  "Equality of joint laws of whole runs, on every state the adaptation can reach.",
  "experiments/stochastic_volatility/experiment.py:one_experiment", "experiments/stochastic_volatility/kernels.py", "gradient_csmc/utils/mcmc_utils.py:sampling_routine")
p("The stochastic volatility posterior is proper and the chains of the experiment keep it",
  "For every data set (zero observations included, for which the likelihood is unbounded) the density sampled from has finite positive mass. With frozen step sizes, the k-th sample of a chain started from a draw of it has that law, exactly for conditional SMC kernels with the Barker move and up to 3e-12 per step otherwise. The law is the posterior of the states given the data, except for MALA, whose log-density lacks the dynamics (C55).",
  "every T, D, N, data, tau > 0, positive step sizes, kernel type, style except smoothing and the filtering style of TP_CSMC and ADAPTED_CSMC (C34), resampling, last step, backward setting, number of steps; a correct factorisation for the marginal style",
  "Statement about integrals over all trajectories, and about laws after any number of steps.",
  "experiments/stochastic_volatility/experiment.py:one_experiment", "experiments/stochastic_volatility/kernels.py", "experiments/stochastic_volatility/model.py")
p("Chains of conditional SMC approach the posterior from every state at a geometric rate",
  "If the target over the proposal is bounded at each time, then from every trajectory and every index vector one step of csmc.kernel draws its next trajectory from the target with probability at least an explicit constant. So sample k of a chain is within (1 - constant)^(steps) of the target in total variation, plus the rounding of force_move per step, whatever the start. The lgssm model satisfies this for all data, the stochastic volatility model if no observation is zero; there every sample of every chain of the script is that close to the posterior, whatever state and step size the adaptation returned, and the constant is positive for the default resampling (killing without backward sampling) and for multinomial resampling.",
  "every T, N, d, model with bounded weights, key, start, resampling, move, number of steps, stride, burn-in; both backward settings (for killing with backward sampling the constant is zero and the bound says nothing)",
  "Convergence from all starting points; a test sees one start and cannot measure total variation.",
  G+"csmc.py:kernel", "gradient_csmc/utils/mcmc_utils.py:sampling_routine", "experiments/lgssm_scaling/kernels.py:get_csmc_kernel", "experiments/stochastic_volatility/kernels.py:get_csmc_kernel", "experiments/stochastic_volatility/experiment.py:one_experiment")
p("The simulated data come from the model whose posterior is sampled",
  "The states and observations returned by get_data have as joint density the exponential of the log-density that the kernels of the experiment take as target. Hence the posterior sampled by the kernels (all but MALA in the stochastic volatility experiment) is the conditional law of the true states given the observations. Almost surely no observation is zero, so that for almost every data set the bootstrap chains converge to that law (C68). For the linear Gaussian experiment this holds if the draws of get_data are independent, for which the code would have to use two keys (C53).",
  "every T, D, nu, phi with phi^2 < 1, tau > 0, rho in [0, 1), key; every sigma > 0 for the linear Gaussian model; every measurable function of states and observations",
  "Equality of laws on an infinite space; an error in an index, a scale or a mean (say a posterior for another data generating process) only shows as miscalibration over many data sets.",
  "experiments/stochastic_volatility/model.py:get_data", "experiments/lgssm_scaling/model.py:get_data", "experiments/stochastic_volatility/experiment.py:one_experiment")
p("Every set of trajectories is reached in one step, and the target is the only invariant law",
  "With at least two particles, one step of every conditional SMC kernel, from any trajectory and any indices, ends with positive probability in any given set of trajectories of positive Lebesgue measure (of positive reference measure for csmc). With the Barker move and a target of finite mass, the target is the only probability law that a step leaves invariant, for every value of the reference indices; and the trajectory of any invariant law of trajectory and indices follows the target. For t_atp_csmc_f the only invariant law is that of its reversed dynamics reweighted by the potentials, whatever these dynamics are.",
  "every T, N >= 1, d, model, step sizes > 0, key, start, both resampling schemes and last moves (Barker for uniqueness), both backward settings; a correct factorisation for tp_csmc, the covariances of C34 for atp_csmc_f, backward = False for al_csmc_s",
  "Quantifies over all sets, all starting points and all invariant laws. A chain that keeps the target but can never leave a part of the space passes invariance tests.",
  G+"csmc.py:kernel", G+"rw_csmc.py:kernel", G+"l_csmc_f.py:kernel", G+"al_csmc_f.py:kernel", G+"al_csmc_s.py:kernel", G+"tp_csmc.py:kernel", G+"atp_csmc_f.py:kernel", G+"t_atp_csmc_f.py:kernel", "gradient_csmc/utils/resamplings.py")
p("Samplers built on conditional SMC forget their start and their averages converge",
  "Run sampling_routine with any of the conditional SMC kernels, at least two particles, the Barker move and a target of finite positive mass. If the first trajectory has a law with a density, or is any fixed trajectory outside a set of measure zero, then the law of a sample gets as close as one likes to the target in total variation as the number of steps grows, and the average of a bounded function over the samples gets as close as one likes in mean square to its mean under the target. The number of steps needed does not depend on the key, on the reference indices or on the thinning. No bound on weights or on the target is needed (contrast C68). The same holds for the runs of the linear Gaussian and the stochastic volatility experiments with frozen step sizes.",
  "every T, N >= 1, d, model, positive step sizes, both resampling schemes, both backward settings, key, thinning, bounded measurable function, law of the start with a density, and almost every fixed start; the restrictions of C70 on tp_csmc, atp_csmc_f, al_csmc_s; no filtering style of TP_CSMC in the stochastic volatility experiment (C34)",
  "Limit statement for all starting laws and all functions; a finite run from one start shows neither.",
  "gradient_csmc/utils/mcmc_utils.py:sampling_routine", G+"csmc.py:kernel", G+"rw_csmc.py:kernel", G+"l_csmc_f.py:kernel", G+"al_csmc_f.py:kernel", G+"al_csmc_s.py:kernel", G+"tp_csmc.py:kernel", G+"atp_csmc_f.py:kernel", G+"t_atp_csmc_f.py:kernel", "experiments/lgssm_scaling/kernels.py", "experiments/stochastic_volatility/kernels.py")
p("Auto-correlations and effective sample sizes of the chains are well defined and scale free",
  "For at least two chains the pooled variance by which cross_chains_autocorr divides is positive exactly when the samples are not all equal; the auto-correlation at lag zero is one; auto-correlations and effective sample sizes do not change when the samples are shifted and rescaled (signs included) nor when the chains are reordered; the effective sample size is n M / (1 + 2 sum (1 - k/n) R_k) over the lags before the first negative auto-correlation, and per chain positive and at most the number of samples. The script saves the auto-correlations only for more than N_LAGS samples (or one): for 2 to 1000 samples it stops with an error after all chains have been run.",
  "every number of chains and samples, all samples; every n_samples",
  "Quantifies over all arrays of samples; the failing range of n_samples is only met in short runs.",
  "experiments/stochastic_volatility/results/results_analysis.py:cross_chains_autocorr", "experiments/stochastic_volatility/experiment.py:one_experiment")
p("The pooled variance of the diagnostics is unbiased",
  "For at least two independent chains with a common law, the expectation of approx_variance (mean of the biased within-chain variances plus variance of the chain means) is exactly the variance of a sample at a uniformly chosen time: for stationary chains the variance of the target, while the within-chain term alone is too small. The chains of the stochastic volatility script satisfy the hypotheses given the end of the adaptation.",
  "every number of samples, at least two chains, every joint law of a chain with finite second moments",
  "An expectation over chains; a wrong denominator (C instead of C - 1) gives a bias that looks like noise.",
  "experiments/stochastic_volatility/results/results_analysis.py:cross_chains_autocorr", "experiments/stochastic_volatility/experiment.py:one_experiment")
p("Every row of the result tables holds the numbers of its label",
  "When a result file has the sizes the analysis was written for, each table is filled without error, its labels are distinct, and the entry at a label (experiment, chain, time, dimension, sample, lag) is the number computed for exactly these indices: energies with their sign changed and only for multiples of the subsampling step, auto-correlations of the energies, means and the ends of the confidence intervals, acceptance rates, step sizes, trajectories, and the smallest, median and largest effective sample size over the dimensions, also per second. min <= med <= max, and per-second values are the values divided by the time of the experiment. A file with n samples is accepted exactly if 44900 < n <= 45000.",
  "every number of experiments, chains, samples, times, dimensions, subsampling step and lag, all contents of the file",
  "A transposed axis or a wrong order of the index gives a table of the right shape with the right numbers in the wrong rows; no shape check sees it.",
  "experiments/stochastic_volatility/results/results_analysis.py")
p("Every result file that is analysed was written by some job",
  "The names of the paper correspond one to one to (kernel, style) pairs, each accepted by the experiment, and mention kappa = 0 and twisted exactly for the kernels built so; the families shown apart partition the names; different columns come from different files. FALSE: not every file read by results_analysis.py is written by a job of distribute.py. Exactly five of the fourteen names are missing, for each of the four values of tau, because the lists zipped in distribute.py are misaligned (C56); other jobs are run twice and overwrite their own results.",
  "every column of the tables, every job",
  "The scripts are only run one after the other by hand, for days; the mismatch shows at the end.",
  "experiments/stochastic_volatility/results/results_analysis.py", "experiments/stochastic_volatility/distribute.py", "experiments/stochastic_volatility/experiment.py", "experiments/stochastic_volatility/kernels.py:KernelType")
KK=[G+"csmc.py:kernel", G+"rw_csmc.py:kernel", G+"l_csmc_f.py:kernel", G+"al_csmc_f.py:kernel", G+"al_csmc_s.py:kernel", G+"tp_csmc.py:kernel", G+"atp_csmc_f.py:kernel", G+"t_atp_csmc_f.py:kernel", "gradient_csmc/utils/common.py"]
p("Conditional SMC without backward sampling is reversible",
  "Two successive states (trajectory and indices) of a stationary chain of any conditional SMC kernel with backward = False have a law that does not change when they are exchanged, for every last move that is reversible for the weights (the Barker move; the exact Metropolised Gibbs move). With force_move the two laws differ by at most 6e-12 in total variation.",
  "every T, N, d, model, positive step sizes, key, resampling scheme, reversible last move, every measurable function of the two states; the restrictions of C34 and C57 on atp_csmc_f and t_atp_csmc_f",
  "Equality of joint laws on a continuous space; reversibility is stronger than invariance and is what the comparison of kernels and the spectral estimates of auto-correlations rest on.",
  *KK)
p("force_move makes larger jumps than barker_move",
  "For any distance between successive states of a stationary chain (between their final values, if there is backward sampling), the mean distance with the Metropolised Gibbs move is at least that with the Barker move, for every conditional SMC kernel. With force_move this holds up to 1e-12 (for distances bounded by one), and the 1e-12 cannot be left out: for two particles with weights 1 - a and a <= 1e-13, force_move leaves the first particle less often than barker_move.",
  "every T, N, d, model, positive step sizes, key, resampling scheme, both backward settings, every measurable distance; the restrictions of C34 and C57 on atp_csmc_f and t_atp_csmc_f, backward = False for al_csmc_s",
  "A comparison of expectations over all chains and distances; this is the reason for which force_move exists, and a wrong acceptance ratio can keep the target while losing it.",
  *KK)
p("With barker_move successive states are nonnegatively correlated",
  "For every function f >= 0 of the state (of the final value, if there is backward sampling), E[f(z) f(z')] >= E[f]^2 for two successive states of a stationary chain of any conditional SMC kernel with the Barker move. So no lag-one auto-correlation of the exact chain is negative, and averages are never better than those of independent draws at lag one.",
  "every T, N, d, model, positive step sizes, key, resampling scheme, both backward settings, every measurable f >= 0; the restrictions of C34 and C57 on atp_csmc_f and t_atp_csmc_f, backward = False for al_csmc_s",
  "Inequality between expectations for all functions; noise in estimated auto-correlations hides its sign.",
  *KK)
p("A stationary run read backwards is a stationary run",
  "Start any conditional SMC kernel with backward = False and the Barker move from its target and run it for any number of steps. The sequence of states read backwards has the law of a run with the keys in opposite order: no statistic of the whole run (order of visits, up- against down-moves, cross-correlations at lag k against lag -k) can tell the direction of time.",
  "every T, N, d, model, positive step sizes, resampling scheme, number of steps, keys, every measurable function of the run; the restrictions of C34 and C57 on atp_csmc_f and t_atp_csmc_f",
  "Equality of the laws of runs of every length; estimators of auto-correlations that pool both directions rest on it.",
  "gradient_csmc/utils/mcmc_utils.py:sampling_routine", *KK)
p("Auto-covariances are nonnegative and decrease with the lag; averages are never better than independent draws",
  "For a stationary run of any conditional SMC kernel with backward = False and the Barker move, the auto-covariance of every function f >= 0 of the state is nonnegative at every lag, and does not increase with the lag if f has a second moment. So the mean square of the sum of f over the M samples returned by sampling_routine (any thinning) is at least M E[f^2] + M (M - 1) E[f]^2, its value for independent draws. Cutting the sum of auto-correlations at the first negative estimate, as the analysis does (C72), discards no true negative auto-correlation of such a chain.",
  "every T, N, d, model, positive step sizes, resampling scheme, key, number of steps, thinning, lag, measurable f >= 0; the restrictions of C34 and C57 on atp_csmc_f and t_atp_csmc_f",
  "Inequalities between expectations at every lag and for all functions; estimated auto-correlations are noisy and their sign and order cannot be tested.",
  "gradient_csmc/utils/mcmc_utils.py:sampling_routine", *KK)
MT=["gradient_csmc/mala.py:kernel", "gradient_csmc/tp.py:get_kernel", "gradient_csmc/imh.py:get_kernel"]
p("The multi-try kernels are reversible, up to the guard of force_move",
  "For a trajectory from the target and the right cached values, the pair (state, state after one step of the MALA, trajectory-preconditioned or independent multi-try kernel) and the pair in the other order differ by at most 6e-12 in total variation: the proposals, weights and selection satisfy detailed balance and not only invariance.",
  "every number of proposals N, T, d, positive step size, measurable log_pdf and gradient (the gradient need not be that of log_pdf), positive-definite covariances, key, both styles of mala.py, every measurable function of the two states with values in [0, 1]; the kernels of both experiments",
  "Near-equality of joint laws on a continuous space, for all targets; a test of one-step means does not see a wrong balance.",
  *MT, "gradient_csmc/utils/common.py:force_move")
p("The multi-try kernels can go everywhere, have at most one invariant law and repair their cached values",
  "With at least one proposal, from every state (also one whose cached log-density and gradient are wrong) one step reaches every set of trajectories of positive measure, with the right cached values. So each kernel has at most one invariant law on its states, and under an invariant law the cached values are right almost surely. Without proposals (N = 0) the kernels do not move.",
  "every N >= 1, T, d, positive step size, measurable log_pdf and gradient, positive-definite covariances, key, state, both styles of mala.py",
  "Positivity for every state and every set, and uniqueness among all laws; no run visits them.",
  *MT, "gradient_csmc/tp.py:init", "gradient_csmc/imh.py:init")
p("Chains with bounded weights settle near their target: the guard of force_move does not accumulate",
  "If the weights are bounded, one step of conditional SMC with a bootstrap-like proposal or of independent Metropolis-Hastings draws from the target with probability at least rate > 0. Then from every state, sample k of a chain that keeps every g-th state is within (1 - rate)^(k g + 1) + eps / rate of the target in total variation, with eps = 3e-12 for force_move and 0 for barker_move: the error of arbitrarily long runs is bounded, where C61 and C68 let it grow with the number of steps.",
  "every T, N, d, bounded model, key, starting state, number of samples and thinning, both resampling schemes, both last moves, both backward settings; CSMC of both experiments and IMH of lgssm_scaling for all observations (non-zero ones for stochastic volatility)",
  "A statement about the laws of runs of every length from every start.",
  "gradient_csmc/utils/mcmc_utils.py:sampling_routine", "gradient_csmc/csmc.py:kernel", "gradient_csmc/tp.py:sampling_routine", "gradient_csmc/imh.py:get_kernel", "experiments/lgssm_scaling/kernels.py", "experiments/stochastic_volatility/kernels.py")
p("Kernels with bounded weights have exactly one invariant law, and it is near the target",
  "If the weights are bounded, there is exactly one law of trajectories that one step of conditional SMC with a bootstrap-like proposal, or of independent Metropolis-Hastings with its cached log-density, leaves unchanged. With barker_move it is the target; with the guard 1e-12 of force_move it is within 3e-12 / rate of the target in total variation. So the long-run bias of force_move is a fixed small number.",
  "every T, N >= 1 (2 for killing, which must be used without backward sampling), d, bounded model, key, both last moves; CSMC of both experiments and IMH of lgssm_scaling for all observations (non-zero ones for stochastic volatility)",
  "Existence and uniqueness of a law on a continuous space, for all models; an invariant law is not observable in finite runs.",
  "gradient_csmc/csmc.py:kernel", "gradient_csmc/imh.py:get_kernel", "gradient_csmc/utils/common.py:force_move", "experiments/lgssm_scaling/kernels.py", "experiments/stochastic_volatility/kernels.py")
p("Averages over a run estimate expectations under the target, from every start",
  "If the weights are bounded, the average of any bounded function over the M samples that sampling_routine keeps has a mean squared error of at most (2 / (rate M) + eps / rate) times the squared range of the function, from every starting state and for every thinning, with eps = 0 for barker_move and 3e-12 for force_move. So with barker_move the probability that the average is away from the expectation under the target tends to zero as the run gets longer (consistency).",
  "every T, N, d, bounded model, key, starting state, number of samples, thinning, bounded measurable function, both resampling schemes, both last moves; the chains of both experiments (after the burn-in for stochastic volatility, whatever the adaptation returned)",
  "A bound on an expectation for all functions, starts and lengths of run.",
  "gradient_csmc/utils/mcmc_utils.py:sampling_routine", "gradient_csmc/csmc.py:kernel", "gradient_csmc/tp.py:sampling_routine", "gradient_csmc/imh.py:get_kernel", "experiments/lgssm_scaling/experiment.py", "experiments/stochastic_volatility/experiment.py")
p("The conditional SMC kernels have at most one invariant law, also with force_move",
  "With at least two particles, every kernel of the package (conditional SMC with any proper proposal, RW, Particle-MALA, Particle-aMALA, Particle-mGRAD, Particle-aGRAD, the twisted kernel and Particle-aMALA+) has at most one invariant law of trajectories: the same for all fixed reference indices, and equal to the trajectory marginal of every invariant law of (trajectory, indices). So where the target is invariant no other law is, and the twisted kernel of C36 has no invariant law besides that of its wrong dynamics.",
  "every T, d, N >= 1, key, proper model, positive step sizes, both resampling schemes, both last moves, both backward settings (backward scanning for al_csmc_s; diagonal covariances as in C34 for Particle-aGRAD)",
  "Uniqueness among all probability laws on a continuous space.",
  "gradient_csmc/csmc.py:kernel", "gradient_csmc/rw_csmc.py", "gradient_csmc/l_csmc_f.py", "gradient_csmc/al_csmc_f.py", "gradient_csmc/al_csmc_s.py", "gradient_csmc/tp_csmc.py", "gradient_csmc/atp_csmc_f.py", "gradient_csmc/t_atp_csmc_f.py", "gradient_csmc/utils/common.py:force_move")
p("The faults found in Particle-aGRAD and Particle-aGRAD+ are the only ones: repaired, they leave their targets invariant",
  "Leave three steps of the kernels of atp_csmc_f.py and atp_csmc_s.py open: chol_inv, what is written into the place of the reference, and the parents of the particles of time 1. With the steps of the code they are the kernels of the code. With a chol_inv that matches chol (which that of the code does exactly if the covariances are the diagonal matrices of their singular values), the reference written into its place and the particles of time 0 resampled once, the kernels leave their targets invariant for all covariances, gradients and both backward passes.",
  "every T (at least 3 for atp_csmc_s), N, d, key, positive-definite covariances above the floor, measurable potentials and gradients (which need not be those of the potentials), step sizes, conditional resampling scheme, invariant last move",
  "Invariance over a continuous space for all models, of code that does not exist yet: shows what a fix must do and that nothing else is wrong.",
  "gradient_csmc/atp_csmc_f.py", "gradient_csmc/atp_csmc_s.py", "gradient_csmc/al_csmc_s.py")
p("The values asserted by the package's own tests are exact, for all sizes",
  "test_uniform, test_two_samples, test_degenerate and test_get_reverse_dynamics check frequencies within a tolerance for one size. Without tolerance and for every number of particles: with equal weights force_move goes to every other index with probability 1 / (K - 1) and reports 1, barker_move to every index with probability 1 / K and reports (K - 1) / K; with two particles force_move leaves k with probability min(1, w_l / w_k), which it reports, and barker_move reports 1 - w_k; with all the mass on one index both return it, reporting 0 from there and 1 from elsewhere; stationary dynamics with independent coordinates are their own reversal.",
  "every number of particles, pair of weights below the guard of force_move, index, key; every number of steps, dimension, positive variance and coefficient",
  "The tests sample 10^6 draws for K = 8 and one pair of weights; the statement is about the exact law for all K and weights.",
  "gradient_csmc/utils/common.py:test_uniform", "gradient_csmc/utils/common.py:test_degenerate", "gradient_csmc/utils/common.py:test_two_samples", "gradient_csmc/utils/common.py:force_move", "gradient_csmc/utils/common.py:barker_move", "gradient_csmc/t_atp_csmc_f.py:get_reversed_dynamics")
p("The job arrays run every configuration once and write every result to its own file",
  "lgssm_scaling: the array 0-1819 has one job for every log-variance -6.0, -5.9, ..., 3.0 and every entry of the grid of kernels and no others; no job stops with an error; different jobs write different files, because the name of a file determines kernel, T, D, N, style, scaling, type and log-variance. The name does not depend on K, M, delta, resampling, last step and backward, so such runs overwrite one another. stochastic_volatility: the array 0-7 should run all 56 configurations but runs only the first eight of the grid with tau = 10.",
  "every job number, configuration, kernel, style, size, and all strings without commas as fields of file names",
  "Nobody runs the arrays in a test; a missing or doubled job only shows as missing results.",
  "experiments/lgssm_scaling/distribute.py", "experiments/lgssm_scaling/distributed_experiment.sh", "experiments/lgssm_scaling/experiment.py", "experiments/stochastic_volatility/distribute.py", "experiments/stochastic_volatility/distributed_experiment.sh")
p("Proposals of the Langevin and random-walk kernels have the intended law",
  "Fix a particle slot i and make resampling always keep i and the move always pick i: the trajectory returned by al_csmc_f, l_csmc_f, al_csmc_s and rw_csmc is then the one proposed in slot i. Its components are independent over time; where the reference occupies slot i the component is the reference; elsewhere it is Gaussian with mean x + (delta/2) * gradient at the reference and variance delta * I for the auxiliary-gradient kernels (delta/2 noise for u, delta/2 for x), with no drift for the random walk. For al_csmc_s the gradient is that of both increments containing x_t.",
  "every number of steps, dimension, particle count, slot, reference trajectory and indices, step sizes, gradient functions and measurable function of the trajectory",
  "A test sees samples of one configuration; a wrong factor of two in drift or variance leaves the kernels invariant and only slows them down.",
  "gradient_csmc/al_csmc_f.py:kernel", "gradient_csmc/l_csmc_f.py:kernel", "gradient_csmc/al_csmc_s.py:kernel", "gradient_csmc/rw_csmc.py:kernel")
p("The experiments hand the kernels the gradients of their models",
  "Linear Gaussian model and stochastic volatility: the gradients that jax.grad computes of the increments Gamma_0 and Gamma_t (in both arguments), of the potentials and of the log-likelihood and log-density of a trajectory are the analytic ones; with stop_gradient those of the potentials are zero. So the MALA_CSMC kernels of styles filtering and marginal propose with the drift of the score of the observation plus the pull of the dynamics, style smoothing adds the term of the next state (for the linear Gaussian model this is the gradient of the joint log-density), RW_CSMC proposes without drift, and TP_CSMC style smoothing passes zero as the gradient in the previous state.",
  "every number of steps, dimension, observations, standard deviation or positive definite covariances, trajectory, slot, step sizes",
  "The kernels are invariant with any gradient, so passing the gradient of the wrong argument goes unnoticed by tests of the target.",
  "experiments/lgssm_scaling/kernels.py", "experiments/stochastic_volatility/kernels.py", "experiments/lgssm_scaling/model.py:log_potential", "experiments/stochastic_volatility/model.py:log_potential")
p("With many particles one step of conditional SMC is nearly an independent draw from the target",
  "If the weights at time t are at most exp(B_t) and the target has mass Z, the trajectory returned by one step of csmc.kernel with N + 1 particles has, whatever the reference trajectory, indices and key, a law within (4n + 2 + 2(n + 1) prod exp(B_t) / Z) / (N + 1) of the target in total variation (plus the rounding of force_move); with killing resampling and backward sampling, the default of the experiments, within (4n + 2)(1 + prod exp(B_t) / Z) / (N + 1). Hence all samples of a run are within this bound, sample k within its power, and for every accuracy there is a number of particles that reaches it for all starts. For the linear Gaussian model with B_t = -(d/2) log(2 pi) and for stochastic volatility without zero observations. Both resampling schemes give a particle at most N + 1 times its weight as expected children and pairs of children no more common parents than independent draws.",
  "every T, N >= 1, state space, key, reference, starting point, run length and stride; multinomial and killing, with and without backward sampling; barker and forced",
  "A statement about total variation distances over continuous spaces for all starting points, uniformly; samples can only suggest it.",
  "gradient_csmc/csmc.py:kernel", "gradient_csmc/utils/resamplings.py:multinomial", "gradient_csmc/utils/resamplings.py:killing", "gradient_csmc/utils/mcmc_utils.py:sampling_routine", "experiments/lgssm_scaling/kernels.py", "experiments/stochastic_volatility/kernels.py")
p("The smoothing style of MALA_CSMC in the experiments: invariant with backward scanning, not with backward sampling",
  "lgssm_scaling and stochastic_volatility, MALA_CSMC with style smoothing: with backward=False the kernel leaves the posterior invariant, and with the parents of time 1 repaired it does in both modes. With backward=True, the default of the experiments, it does not: for the linear Gaussian model with any number of observations from three on, standard deviation and step size near their default 1, killing or multinomial resampling, forced or Barker last step, the law of the trajectory after one step from the posterior is not bounded by any multiple of the posterior, whatever the observations.",
  "invariance: every T >= 3, N, d, key, positive step sizes, positive (definite) covariances. Failure: every T >= 3, N >= 1, d >= 1, observations and key, all standard deviations and step sizes near 1 (and all that have a witness)",
  "The experiment starts the chains at the posterior to measure jump distances; that the first step already leaves it only shows in the tails.",
  "experiments/lgssm_scaling/kernels.py:get_mala_csmc_kernel", "experiments/stochastic_volatility/kernels.py:get_mala_csmc_kernel", "gradient_csmc/al_csmc_s.py:kernel", "experiments/lgssm_scaling/experiment.py")
p("Every line of every figure shows the numbers of the run it is labelled with",
  "results_analysis.py of stochastic_volatility: a point is drawn in the panel of a kernel name, experiment and tau (and for a chain, where lines are per chain) exactly if the name belongs to the family of the figure, tau is one of the four values and the position exists; its height is computed from the file of that kernel, style and tau at that experiment, chain, time, dimension, sample or lag: minus the energy, the autocorrelation, the step size, the mean over chains of the acceptance rates, the true state, the posterior mean and mean +- 1.96 std of the selected dimension, the mean over experiments of the median effective sample size (per second). Bands are two standard errors. The inner merges of the five trajectory tables leave exactly one row per kernel, experiment, chain and time. The tables read back from the csv files are those written; the labels in the files are ignored.",
  "all files of the sizes of the script, all tau, names, experiments, chains, times, dimensions, samples and lags",
  "Figures are looked at, not tested; a line under the wrong name or an average over the wrong axis looks plausible.",
  "experiments/stochastic_volatility/results/results_analysis.py")
p("The particle filter: properly weighted trajectories, an unbiased evidence estimate, and a start that ignores the truth",
  "csmc.kernel with conditional=False. For every number of particles, averages of functions of the returned trajectory, weighted by the evidence estimate of the particles (the product over time of the mean importance weights), are the integrals over the target; in particular the evidence estimate is unbiased. Both resampling schemes give a particle (N + 1) w children on average. The returned trajectory has a law that is a probability measure with the same null sets as the target; if the weights are bounded, this law is at least a fixed fraction of the target. The stochastic volatility experiment starts its chains from such a trajectory: its law depends neither on the true trajectory that is passed for its shape, nor on the keys or the last-step option, and it has a positive density.",
  "every T, N >= 0, state space, proper model, key, reference, measurable function; killing and multinomial; with backward sampling and any move, or without and barker",
  "Unbiasedness is exact for every N, while simulations only see noisy averages; that the true trajectory is not used can only be tested with one key at a time.",
  "gradient_csmc/csmc.py:kernel", "gradient_csmc/utils/resamplings.py:multinomial", "gradient_csmc/utils/resamplings.py:killing", "experiments/stochastic_volatility/experiment.py:one_experiment")
p("The whole run of the stochastic volatility experiment samples from the posterior",
  "one_experiment of stochastic_volatility, from the particle filter that draws the first trajectory through the adaptation of the step sizes and the burn-in to the samples, with a conditional SMC kernel, the Barker move and at least two particles: for every accuracy there is a number of steps after which every sample of every chain has the posterior law up to this accuracy in total variation, and the averages over the samples of a chain of any function with a posterior mean converge to that mean in probability. The bounds do not depend on the keys, the burn-in, the numbers of samples and chains, or the true trajectory. The step sizes that come out of the adaptation stay between 1e-5 and 10; with at most 101 adaptation steps they are delta_init, for all kernels, and the next step changes them.",
  "every T, dimension, number of adaptation steps, tau > 0, target rate, delta_init in [1e-5, 10], observations, keys; killing and multinomial, with and without backward sampling; all conditional SMC kernels but styles smoothing and (TP_CSMC, ADAPTED_CSMC) filtering",
  "Adaptive chains need not converge to their target; that this one does, for all keys and starting points at once, is a limit statement about laws.",
  "experiments/stochastic_volatility/experiment.py:one_experiment", "gradient_csmc/utils/mcmc_utils.py:delta_adaptation_routine", "gradient_csmc/t_atp_csmc_f.py:delta_adaptation_routine", "gradient_csmc/csmc.py:kernel")
p("The posterior means and standard deviations that the stochastic volatility experiment reports are consistent",
  "one_experiment of stochastic_volatility, same options: with a probability as close to one as desired, all means and standard deviations reported for a chain (all times and components at once) are as close as desired to those of the posterior, if the number of samples is large enough. The posterior has finite second moments for all observations.",
  "as for the samples of the whole run",
  "The numbers of a finite run are noisy and the posterior moments are not available in closed form.",
  "experiments/stochastic_volatility/experiment.py:one_experiment")
p("The acceptance rates and auto-correlations that the stochastic volatility experiment reports are consistent",
  "one_experiment of stochastic_volatility, conditional SMC kernels with the Barker move: with a probability as close to one as desired, the acceptance rates reported for a chain (final_pct, all times at once) are as close as desired to the acceptance probabilities of a stationary run with the reported step sizes, and the reported auto-correlations (samples_acf, all lags up to any fixed one, times and components at once, averaged over the chains) are as close as desired to those of a stationary run with the reported step sizes, if the number of samples is large enough. The joint law of two samples of a stationary run only depends on their distance; the posterior variances are positive.",
  "for all options but the style smoothing and the one-proposal kernels, all observations, tau > 0, at least two particles, all keys, numbers of adaptation steps, burn-in lengths, numbers of chains, lags and accuracies",
  "The numbers of a finite run are noisy, the limits are not available in closed form, and the step sizes are random.",
  "experiments/stochastic_volatility/experiment.py:one_experiment")
p("The stochastic volatility experiment with its default last step: the guard of force_move changes next to nothing",
  "one_experiment of stochastic_volatility with last_step forced, the default, and a conditional SMC kernel: every event about the reported step sizes and one chain has the same probability, up to 3e-12 times the number of steps of the adaptation, the burn-in and the chain (up to 2e-7 for the default numbers), as in the run whose last move has no guard against a division by zero; for events about all M chains the steps of all chains count. Hence the statements about the whole run with the Barker move (samples, reported means and standard deviations, acceptance rates, auto-correlations) hold with the default move up to this error.",
  "all options but the style smoothing and the one-proposal kernels, all observations, tau > 0, keys, numbers of adaptation steps, burn-in lengths, samples and chains; convergence: at least two particles",
  "The default move does not keep the target exactly; the error of a run is far below what simulations can see, and must not be amplified by the adaptation, which feeds acceptance rates back into the step sizes.",
  "experiments/stochastic_volatility/experiment.py:one_experiment", "gradient_csmc/utils/common.py:force_move", "gradient_csmc/utils/mcmc_utils.py:delta_adaptation_routine", "gradient_csmc/t_atp_csmc_f.py:delta_adaptation_routine")
p("The stochastic volatility experiment with its default kernel: MALA and TP sample from their law and report consistent numbers",
  "one_experiment of stochastic_volatility with the kernel MALA (the default of the script) or TP, which choose among candidates for the whole trajectory with force_move: every event about the reported step size and one chain has the same probability, up to 3e-12 times the number of steps of the adaptation, the burn-in and the chain (up to 2e-7 for the default numbers), as in the run whose move has no guard against a division by zero. For every accuracy there is a number of steps after which every sample has the law that the kernel keeps, up to this accuracy and the effect of the guard: the posterior for TP, the posterior of the model without dynamics for MALA. The reported means, standard deviations, acceptance rates and auto-correlations are close to those of this law and of a stationary run with the reported step size, with a probability as close to one as desired, again up to the guard.",
  "both styles of MALA, all observations, tau > 0, keys, numbers of adaptation steps, burn-in lengths, samples and chains, killing and multinomial (in the filter that draws the start), every last_step option; convergence: at least two candidates",
  "The numbers of a finite run are noisy, the step size is random and fed by the flags of the kernel, and the error of the move is far below what simulations can see.",
  "experiments/stochastic_volatility/experiment.py:one_experiment", "gradient_csmc/mala.py:kernel", "gradient_csmc/tp.py:kernel", "gradient_csmc/tp.py:delta_adaptation_routine", "gradient_csmc/tp.py:sampling_routine", "experiments/stochastic_volatility/kernels.py:get_mala_kernel", "experiments/stochastic_volatility/kernels.py:get_tp_kernel")
p("The scaling experiment reports numbers close to the expected squared jump distances",
  "one_experiment of lgssm_scaling, for every observed series: the expected squared jump distance of a step that keeps the posterior is at most 4 D at every time, whatever the kernel, the step size, the number of particles and the length of the series. The value reported for a time is within eta of it, but for a probability of at most 48 D^2 / (M eta^2). With the default last_step, and with the kernels TP, MALA, RW and IMH whatever the last_step, every event about the reported array has the same probability as with the kernel whose move has no guard against a division by zero, up to 3e-12 for each replicate (3e-8 with the default 10000), so the same bound holds around the expected squared jump distance of this kernel.",
  "all kernels of the experiment except the smoothing styles, all observations, lengths, dimensions, sigma > 0, delta > 0, keys, N, M > 0, killing and multinomial, both last_step options",
  "A finite run gives one noisy estimate for one series; finiteness of the moment and the rate in M are not visible in it, and the effect of the guard is far below the noise.",
  "experiments/lgssm_scaling/experiment.py:one_experiment", "experiments/lgssm_scaling/experiment.py:esjd", "gradient_csmc/utils/common.py:force_move")
p("The auto-correlations of the energies that are drawn are close to those of a stationary run",
  "one_experiment of stochastic_volatility returns the energies of the samples, and results_analysis.py estimates their auto-correlations from all chains (cross_chains_autocorr). Whatever the two matrices that enter the energy (those of get_data are wrong for correlated noise), all powers of the energy are integrable under the law that the kernel samples from and its variance is positive. With a probability as close to one as desired, all the drawn auto-correlations (lags 0 to any fixed one) are as close as desired to the auto-correlations of the energy along a stationary run with the reported step sizes, which start at one and are at most one in absolute value, if there are enough samples; with the default last step, MALA and TP up to 3e-12 for each step of each chain.",
  "all kernels of the experiment but the style smoothing, all observations, tau > 0, dimensions >= 1, matrices, keys, numbers of adaptation steps, burn-in lengths, at least two chains and two particles, all lags and accuracies",
  "The estimates of a finite run are noisy, the limits are not available in closed form, and the estimate mixes variances within and between chains.",
  "experiments/stochastic_volatility/results/results_analysis.py:cross_chains_autocorr", "experiments/stochastic_volatility/experiment.py:one_experiment", "experiments/stochastic_volatility/model.py:log_pdf")
p("A particle filter with many particles nearly draws from the target, and its evidence estimate is nearly exact",
  "csmc.kernel with conditional=False, n + 1 time steps, N + 1 particles and weights at most exp(B_t): the law of the returned trajectory is within (n + 1) exp(sum B_t) / (Z (N + 1)) of the target in total variation, where Z is the mass of the target, and the evidence estimate (product of the mean weights) has a relative variance of at most the same number, so it is off by a factor eps or more with probability at most this number over eps^2. Children share parents no more often than independent draws, with killing and with multinomial. In the stochastic volatility experiment, if no observation is zero, the trajectory from which all chains start is therefore as close to the posterior as desired with enough particles.",
  "all Feynman-Kac models with proposals given by densities and bounded weights, both resampling schemes, backward sampling with any move or ancestor tracing with the Barker move, all keys, references, lengths and numbers of particles",
  "Distances between laws are not visible in samples, and the constants must hold for every model and length.",
  "gradient_csmc/csmc.py:kernel", "gradient_csmc/utils/resamplings.py:killing", "gradient_csmc/utils/resamplings.py:multinomial", "experiments/stochastic_volatility/experiment.py:one_experiment")
p("With many particles the scaling experiment reports twice the trace of the smoothing covariance",
  "One step of imh.kernel with N proposals and log_pdf <= B draws, from every trajectory, from a law within 2 exp(B) / ((N + 1) Z) of the target in total variation, plus 3e-12 for the guard of force_move, where Z is the mass of the target. In lgssm_scaling with the kernels CSMC and IMH, any options: if the distance between one step and the posterior is at most eps^2, the expected squared jump distance at a time t is within 14 D eps of that of two independent draws from the posterior, which is twice the trace of the covariance P_t computed by the Kalman filter and smoother of the package and does not depend on the observations. The value reported for t is within eta + 14 D eps of 2 tr(P_t), but for a probability of at most 48 D^2 / (M eta^2), plus 3e-12 for each replicate; the distance vanishes as the number of particles grows.",
  "all observations, lengths, dimensions, sigma > 0, keys, N >= 1, M >= 1, killing and multinomial, both last_step options, with and without backward sampling; the bound for imh.kernel: all Gaussian dynamics with positive definite covariances and all measurable log_pdf bounded above",
  "The limit concerns arbitrarily many particles and replicates, and all series; a run gives one noisy number for one of them.",
  "gradient_csmc/imh.py:kernel", "experiments/lgssm_scaling/experiment.py:one_experiment", "gradient_csmc/utils/kalman/smoothing.py:smoothing", "gradient_csmc/csmc.py:kernel")
p("Small steps of the kernels with one trajectory are accepted",
  "From every trajectory at which the log-density and the function used as its gradient are continuous, the probability that a step of mala.kernel (both styles) or of the kernel of tp.py returns the flag True tends to one as the step size delta tends to zero from above, with any number N >= 1 of proposals and any Gaussian dynamics with positive definite covariances. So does the acceptance rate averaged over any law of the trajectories, if the log-density and the gradient are continuous. In lgssm_scaling (MALA, aMALA and TP, with and without stop_gradient) and stochastic_volatility (MALA in both styles, TP) this holds for all observations, and every target rate below one is exceeded, in a stationary run, for all small step sizes: the adaptation of the step size has something to find.",
  "all log-densities and gradients as above, states, keys, N >= 1, lengths, dimensions, Gaussian dynamics, observations; for stochastic_volatility all tau > 0",
  "The limit concerns infinitely many step sizes and the exact acceptance probability, from every state; a sign error in the weights that vanishes for symmetric targets would not show in a run.",
  "gradient_csmc/mala.py:kernel", "gradient_csmc/tp.py:get_kernel", "gradient_csmc/utils/common.py:force_move", "experiments/stochastic_volatility/kernels.py:get_mala_kernel", "experiments/lgssm_scaling/kernels.py:get_tp_kernel")
p("Small steps of the particle kernels with backward sampling move at each time with probability N / (N + 1)",
  "From every trajectory and all indices, with backward sampling and any conditional resampling scheme, the probability that one step of rw_csmc.kernel, al_csmc_f.kernel or l_csmc_f.kernel returns at time t another index than the current one tends to N / (N + 1) as all step sizes tend to zero from above, for every t; at the last time it tends to one if the last step is forced. It suffices that the potentials and the functions used as gradients are continuous and that ells = deltas. In lgssm_scaling and stochastic_volatility this holds for RW_CSMC and MALA_CSMC (styles filtering and marginal) for all observations, and in stochastic_volatility every target rate below N / (N + 1) is exceeded at all times, averaged over any law of the trajectories, once all step sizes are small.",
  "all continuous potentials and gradients, trajectories, indices, keys, N >= 1, lengths, dimensions, resampling schemes, both last_step options, all ways for the step sizes to vanish",
  "The limit concerns the exact probabilities for infinitely many step sizes; a term of the weights that does not vanish with the step size, such as a wrong factor in the ratio of two Gaussian densities, only lowers the rates a little in a run.",
  "gradient_csmc/rw_csmc.py:kernel", "gradient_csmc/al_csmc_f.py:kernel", "gradient_csmc/l_csmc_f.py:kernel", "gradient_csmc/csmc.py:backward_sampling_pass", "experiments/stochastic_volatility/kernels.py:get_mala_csmc_kernel")
p("Small steps of the particle kernels without backward sampling move as often as with it under killing, and geometrically less often back in time under multinomial resampling",
  "From every trajectory and all indices, without backward sampling, the probability that one step of rw_csmc.kernel, al_csmc_f.kernel or l_csmc_f.kernel returns at time t (of 0..n) another index than the current one tends, as all step sizes tend to zero from above, to c r^(n - t): c = N / (N + 1) with the Barker last step and 1 with the forced one; r = 1 with killing and r = N / (N + 1) with multinomial resampling. It suffices that the potentials and the functions used as gradients are continuous and that ells = deltas. In stochastic_volatility with --no-backward (RW_CSMC and MALA_CSMC in styles filtering and marginal, all observations, averaged over any law of the trajectories) every target rate below N / (N + 1) is therefore exceeded by small steps with killing, while with multinomial resampling small steps miss every target above (N / (N + 1))^(n - t) at time t, so that the adaptation has nothing to find at early times.",
  "all continuous potentials and gradients, trajectories, indices, keys, N >= 1, lengths, dimensions, both resampling schemes, both last_step options, all ways for the step sizes to vanish",
  "The limit concerns the exact law of a genealogy over all time steps for infinitely many step sizes; a resampling scheme that is slightly unfair to the reference, or returns it at a wrong position, changes the rate only a little at each step.",
  "gradient_csmc/csmc.py:backward_scanning_pass", "gradient_csmc/utils/resamplings.py:killing", "gradient_csmc/utils/resamplings.py:multinomial", "gradient_csmc/rw_csmc.py:kernel", "gradient_csmc/al_csmc_f.py:kernel", "gradient_csmc/l_csmc_f.py:kernel")
p("Large steps of the particle kernels with random walks are rejected, so that small and large steps bracket every target rate",
  "From every trajectory and all indices, with and without backward sampling, the probability that one step of rw_csmc.kernel returns at time t another index than the current one tends to zero as all step sizes tend to infinity, for every t. It suffices that the dimension is at least one and that the potentials are continuous and tend to minus infinity far away, whatever the previous state. In lgssm_scaling this holds for RW_CSMC with all observations; in stochastic_volatility for all observations without zeros, averaged over any law of the trajectories. With backward sampling, for every target rate between zero and N / (N + 1), there are therefore positive bounds below which step sizes accept more than the target and above which they accept less, at all times.",
  "all such potentials, trajectories, indices, keys, N >= 1, lengths, dimensions >= 1, resampling schemes, both last_step options, with and without backward sampling, all ways for the step sizes to grow",
  "The limit concerns the exact probabilities for infinitely many step sizes, from every trajectory; moves to particles of negligible weight, such as a forced move without its acceptance step, would not be noticed at moderate step sizes.",
  "gradient_csmc/rw_csmc.py:kernel", "gradient_csmc/csmc.py:backward_sampling_pass", "gradient_csmc/csmc.py:backward_scanning_pass", "gradient_csmc/utils/common.py:force_move", "experiments/stochastic_volatility/kernels.py:get_rw_csmc_kernel")
p("Large steps of MALA and of the random walk on whole trajectories are rejected, so that small and large steps bracket every target rate",
  "From every state the probability that a step of mala.kernel sets the acceptance flag tends to zero as the step size tends to infinity, in both styles, with any number of proposals, if the log-density is bounded above and the norm of its gradient tends to infinity far away; with a gradient of zero (stop_gradient) if the log-density tends to minus infinity far away. The targets of lgssm_scaling (MALA, RW; all observations, all sigma) and stochastic_volatility (MALA; all observations, zeros included) qualify, because they are strongly concave along every line. In stochastic_volatility, for every target rate strictly between zero and one, there are therefore positive bounds below which step sizes accept more than the target and above which they accept less, for any law of the trajectories.",
  "all such densities, states, keys, N >= 1, lengths and dimensions >= 1, both styles, with and without stop_gradient",
  "The limit concerns exact probabilities for infinitely many step sizes from every state; a correction term with the wrong sign or power of the step size can make huge steps acceptable from some states only.",
  "gradient_csmc/mala.py:kernel", "gradient_csmc/mala.py:get_log_H", "experiments/lgssm_scaling/kernels.py:get_mala_kernel", "experiments/stochastic_volatility/kernels.py:get_mala_kernel", "experiments/stochastic_volatility/model.py:log_pdf")
p("Large steps of the particle kernels with gradients are rejected, so that small and large steps bracket every target rate",
  "From every trajectory and all indices, with and without backward sampling, the probability that one step of al_csmc_f.kernel, or of l_csmc_f.kernel, returns at time t another index than the current one tends to zero as all step sizes tend to infinity, for every t. It suffices that the dimension is at least one and that the potentials are continuous and tend to minus infinity far away, whatever the previous state; the functions used as gradients are arbitrary, so that no drift, however large, makes huge steps acceptable. In lgssm_scaling this holds for MALA_CSMC in styles filtering and marginal with all observations; in stochastic_volatility for all observations without zeros, averaged over any law of the trajectories. With backward sampling, for every target rate between zero and N / (N + 1), there are therefore positive bounds below which step sizes accept more than the target and above which they accept less, at all times.",
  "all such potentials, all gradient functions, trajectories, indices, keys, N >= 1, lengths, dimensions >= 1, resampling schemes, both last_step options, with and without backward sampling, all ways for the step sizes to grow",
  "The limit concerns exact probabilities for infinitely many step sizes and every gradient function; a weight whose correction for the drift has the wrong sign or power of the step size is plausible at moderate step sizes.",
  "gradient_csmc/al_csmc_f.py:kernel", "gradient_csmc/l_csmc_f.py:kernel", "gradient_csmc/csmc.py:backward_sampling_pass", "experiments/lgssm_scaling/kernels.py:get_mala_csmc_kernel", "experiments/stochastic_volatility/kernels.py:get_mala_csmc_kernel")
p("MALA has a step size whose acceptance rate is the target rate, up to 3e-12",
  "For mala.kernel in both styles, for every law of the trajectories the steps start from and every target rate strictly between zero and one, there is a positive step size whose acceptance probability, averaged over that law, differs from the target by at most 3e-12. It suffices that the log-density and the function used as its gradient are continuous, that the log-density is bounded above and that the norm of the gradient tends to infinity far away; or, with a gradient of zero, that the log-density tends to minus infinity far away. In lgssm_scaling this holds for MALA, aMALA and the random walks with all observations, in stochastic_volatility for the kernels made for MALA with all observations and under the posterior. So the step size adaptation, which stops adapting within a band around the target, aims at something that exists. The error is that of the threshold in force_move, at which the acceptance probability may jump.",
  "all such log-densities and gradients, laws of the trajectories, target rates in (0, 1), keys, N >= 1, lengths, dimensions >= 1, both styles",
  "An existence statement about exact averages over a continuum of step sizes; no test evaluates an acceptance rate to twelve digits, and a kernel whose rate jumped over the target would only show as an adaptation that never settles.",
  "gradient_csmc/mala.py:kernel", "gradient_csmc/utils/common.py:force_move", "experiments/lgssm_scaling/kernels.py:get_mala_kernel", "experiments/stochastic_volatility/kernels.py:get_mala_kernel", "gradient_csmc/utils/mcmc_utils.py:delta_adaptation_routine")
p("The scans over time read aligned entries for every length, and the smoothing kernels need three time steps",
  "With python's rules for slices, for every number T of time steps: in csmc.forward_pass iteration k reads the parameters and key of transition k, b_star at k and k + 1 and x_star at k + 1; in csmc.backward_sampling_pass iteration k reads key k and the particles, weights and parameters of time T - 2 - k, and the states returned are those of times 0, ..., T - 1 in this order. The forward scan of al_csmc_s is aligned in the same way for T >= 2. The backward scan of al_csmc_s and atp_csmc_s has seven arrays of equal length for T >= 3, the iteration at position k reads the particles, weights and key of time k + 1, their parents and the parameters of the transitions into k + 1, k + 2 and k + 3, and the states returned are those of times 0, ..., T - 1. For T = 2, which --T 2 asks for, it returns three states, of times 0, 0 and 1, and sampling_routine stops with an error: it runs if and only if T >= 3. The array operations of the formal model are these slices; the samples kept are those of the steps that are multiples of get_samples.",
  "all numbers of time steps T >= 1 (csmc) or T >= 2 (smoothing gradients), all positions, all arrays",
  "Tests run a few values of T; shapes that agree do not show that the entries are those of the right time, and no test runs two time steps with smoothing gradients.",
  "gradient_csmc/csmc.py:forward_pass", "gradient_csmc/csmc.py:backward_sampling_pass", "gradient_csmc/al_csmc_s.py:kernel", "gradient_csmc/al_csmc_s.py:backward_sampling_pass", "gradient_csmc/atp_csmc_s.py:backward_sampling_pass", "gradient_csmc/utils/mcmc_utils.py:sampling_routine")
if __name__ == "__main__":
    out = os.path.join(os.path.dirname(__file__), "..", "properties.jsonl")
    with open(out, "w") as f:
        for q in P:
            f.write(json.dumps(q, ensure_ascii=False) + "\n")
    print(len(P))
