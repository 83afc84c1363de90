import Verif.Model.SvRuns

/-!
# Auto-correlations and effective sample sizes

`cross_chains_autocorr` of `experiments/stochastic_volatility/results/results_analysis.py`, and the statistics of the chains computed
at the end of `experiment.py`.  The functions of `tensorflow_probability` they call are modelled after its documentation.  There are
`L + 1` samples and `M` chains; a division by zero, `NaN` in the code, is zero here.
-/

namespace Verif.Model
open Verif

variable {L M : ℕ}

/-- `tfp.stats.auto_correlation(x, axis=0, normalize=False)` at one lag: the sample is centred, and the products are averaged over the
pairs that are inside the sample. -/
noncomputable def tfp_auto_cov (x : Fin (L + 1) → ℝ) (lag : ℕ) : ℝ :=
  let w := fun k => x k - meanA x
  (∑ k : Fin (L + 1), if h : k + lag < L + 1 then w ⟨k + lag, h⟩ * w k else 0) / (((L + 1 : ℕ) : ℝ) - lag)

/-- `tfp.stats.auto_correlation(x, axis=0)` at one lag. -/
noncomputable def tfp_auto_corr (x : Fin (L + 1) → ℝ) (lag : ℕ) : ℝ := tfp_auto_cov x lag / tfp_auto_cov x 0

/-- Number of lags returned for a given `max_lags`. -/
def tfp_lags (L max_lags : ℕ) : ℕ := min L max_lags + 1

/-- `tfp.mcmc.diagnostic._reduce_variance(x, biased=False)`. -/
noncomputable def tfp_variance (a : Fin M → ℝ) : ℝ := (∑ i, (a i - meanA a) ^ 2) / ((M : ℝ) - 1)

/-- `approx_variance`: `/repo/experiments/stochastic_volatility/results/results_analysis.py:46-54`. -/
noncomputable def approx_variance (samples : Fin (L + 1) → Fin M → ℝ) : ℝ :=
  let between_chain_variance_div_n := tfp_variance fun i => meanA fun k => samples k i
  let biased_within_chain_variance := meanA fun i => tfp_auto_cov (fun k => samples k i) 0
  biased_within_chain_variance + between_chain_variance_div_n

/-- `cross_chains_autocorr` at one lag: `/repo/experiments/stochastic_volatility/results/results_analysis.py:40-58`. -/
noncomputable def cross_chains_autocorr (samples : Fin (L + 1) → Fin M → ℝ) (lag : ℕ) : ℝ :=
  let biased_within_chain_variance := meanA fun i => tfp_auto_cov (fun k => samples k i) 0
  let mean_auto_cov := meanA fun i => tfp_auto_cov (fun k => samples k i) lag
  1 - (biased_within_chain_variance - mean_auto_cov) / approx_variance samples

open Classical in
/-- End of `tfp.mcmc.effective_sample_size` with `filter_beyond_positive_pairs=False` and the default `filter_threshold=0.`: the
auto-correlations are kept as long as none was negative. -/
noncomputable def tfp_ess (num_chains : ℕ) (auto_corr : Fin (L + 1) → ℝ) : ℝ :=
  let nk_factor := fun k : Fin (L + 1) => (((L + 1 : ℕ) : ℝ) - k) / (L + 1 : ℕ)
  let below := fun k : Fin (L + 1) => ∑ j : Fin (L + 1), if j ≤ k ∧ auto_corr j < 0 then (1 : ℝ) else 0
  let mask := fun k => max (1 - below k) 0
  let weighted := fun k => nk_factor k * auto_corr k * mask k
  num_chains * (L + 1 : ℕ) / (-1 + 2 * ∑ k, weighted k)

/-- `samples_ess` of one coordinate: `/repo/experiments/stochastic_volatility/experiment.py:194-198`. -/
noncomputable def samples_ess (samples : Fin (L + 1) → Fin M → ℝ) : ℝ :=
  if 1 < M then tfp_ess M (fun k : Fin (L + 1) => cross_chains_autocorr samples k) / M
  else if h : M = 1 then tfp_ess 1 (fun k : Fin (L + 1) => tfp_auto_corr (fun k => samples k ⟨0, h ▸ Nat.one_pos⟩) k)
  else 0

/-- `samples_acf` of one coordinate at one lag: `/repo/experiments/stochastic_volatility/experiment.py:200-201`. -/
noncomputable def samples_acf (samples : Fin (L + 1) → Fin M → ℝ) (lag : ℕ) : ℝ :=
  meanA fun i => tfp_auto_corr (fun k => samples k i) lag

/-- `acf_all[k, ...] = samples_iacf_k` into an array with `N_LAGS + 1` rows: the number of lags has to be the number of rows, or one.
`/repo/experiments/stochastic_volatility/experiment.py:200, 219, 237`. -/
def save_acf (n_samples N_LAGS : ℕ) : Except String Unit :=
  if tfp_lags (n_samples - 1) N_LAGS = N_LAGS + 1 ∨ tfp_lags (n_samples - 1) N_LAGS = 1 then .ok () else .error "ValueError"

end Verif.Model
