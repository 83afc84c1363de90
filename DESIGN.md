# Formal model of particle_mala: design

Lean 4.33.0 + Mathlib, project in `lean/`.  Property list: `properties.jsonl`
(generated by `tools/props.py`).  Status of each property: `MANIFEST.json`.

## 1. Shape of the model

Every python function that draws random numbers is modelled **once**, as a program over an abstract
monad `m` with a `RandM m` instance (`Verif/Core/Rand.lean`).  The operations mirror `jax.random`:
`choice`, `choices`, `uniform`, `uniforms`, `normal1/2/3` (shapes `(d,)`, `(k,d)`, `(T,k,d)`); each takes an explicit
PRNG key.  Keys are symbolic: a key is the list of `split` indices from the root key.  The same program text is read in three ways:

* **`Poss`** - the set of possible (result, list of keys consumed) pairs; `Always P Q` says that `Q` holds of
  *every* possible result.  Used for structural properties and key discipline.
* **`Ex`** - expectation semantics `(a -> ENNReal) -> ENNReal`: `choice` is a weighted finite sum, `uniform` an integral over
  `[0,1)`, `normal` an integral against a product of standard Gaussians.  Keys are ignored (each draw
  is fresh), which is justified by the key-discipline theorem (C52).  Invariance statements are statements about `Ex`.
* **any lawful monad** - program equalities ("same output for every key and every generator").

Arrays with a time axis are functions `Fin (n+1) -> _` (`T = n+1`), particle arrays are `Fin (N+1) -> _`.
`jax.lax.scan` is `scanM`; `x[::-1]`, `x[:-1]`, `x[1:]`, `jnp.insert(x, 0, v)`, `jnp.take`, `jnp.roll`, `.at[i].set`
are small total functions (`Verif/Core/Arr.lean`), and the model keeps the reversals/insertions of the code.

### Simplifications (global)
* floats are real numbers: no rounding, overflow, NaN or -inf (exceptions, modelled explicitly: the
  finiteness guard of `rw_csmc`, the NaN-initialised acceptance history);
* `jnp.exp/log/sqrt` are the real functions; `logsumexp lw = log (sum exp lw)`;
* `jax.grad` / `value_and_grad` is a parameter: an arbitrary (measurable) function for the
  invariance theorems;
* `jnp.linalg.cholesky`, `eigh`, `solve` are parameters constrained by their defining equation;
* `jax.random.choice(p)` draws `i` with probability `p[i]/sum p`; in `Poss` it may return any index with
  positive probability (any index at all when there is none);
* PRNG keys: splitting is free (injective) and draws with distinct keys are independent;
* vmap/jit/pmap, host callbacks, plotting, file output and command-line parsing are not modelled.

## 2. Plan per property

| id | what is modelled | how it is proved |
|----|------------------|------------------|
| C01 | `multinomial`, `killing` | `Poss` |
| C02-C04 | idem | `Ex`: exact law, finite sums + `[0,1)` integrals |
| C05 | `killing` | `Poss` with supports |
| C06 | `normalize` | real analysis |
| C07-C10 | `barker_move`, `force_move` | `Ex`; C10 is false of the code: negation + upper bound |
| C11 | `_log_1_m_exp` | false of the code in general: negation + case max = 0 |
| C12-C14 | `csmc.*` and the gradient variants | `Poss`, induction over the scan |
| C15, C16 | `csmc.kernel` | `Ex`: forward identity by induction over T, then scanning / backward recursion |
| C17, C18 | `csmc.kernel`, `rw_csmc.kernel` | program equality |
| C19 | experiments' bootstrap kernels | algebra |
| C20 | `rw_csmc.kernel` guard with an abstract `isfinite` | `Poss` |
| C21-C23 | `rw_csmc`, `al_csmc_f`, `l_csmc_f` | `Ex`; auxiliary variables integrated out, reduction to the core of C15/C16 |
| C24 | idem | program equality |
| C25-C28 | `al_csmc_s`, `atp_csmc_s` | algebra by induction over T; C26 is false of the code at time 1 (negation + correct part); C27 is false with backward sampling: on the model of `Spec/WrongParent` the kernel is compared with the repaired one (`Lemmas/WrongParent*`) |
| C29 | `atp_csmc_s` | false of the code (witness); consequence: the kernel changes the law of the last state (`Spec/LastAlone`, strict Jensen inequality for the harmonic mean of the weights) |
| C30, C31 | `get_log_H`, `get_log_H_bis`, `mala.get_log_H`, `H_phi` | linear algebra |
| C32-C34 | `atp_csmc_f` | linear algebra with the eigen-decomposition as hypothesis; C33 false (negation + isotropic case); C34 false: second moments after one step (`Lemmas/NotInvariant`, `Lemmas/AtpFlat`) show that invariance for a flat potential forces the precision of the code to be right |
| C35 | `tp_csmc` | as C23 |
| C36, C37 | `t_atp_csmc_f` | linear algebra; C36 false (negation + exact condition); uniqueness of Gaussian parameters |
| C57 | `t_atp_csmc_f` | as C34 (auxiliary variables, `GaussSys`) |
| C38-C40 | `utils/kalman` | linear algebra, induction over T |
| C41 | `utils/math.py` | linear algebra, Gaussian integral |
| C42-C45 | `mala`, `tp`, `imh` | `Poss`, `Ex` |
| C46-C50 | `mcmc_utils`, `tp` drivers | induction over steps |
| C51 | `pbar` | arithmetic over the iteration index |
| C52, C53 | keys of all programs | `Poss` key log; C53 false for lgssm |
| C44 | `mala`, `tp`, `imh` | exchangeability of the candidates given the auxiliary variable (or after integrating it out); one step and runs, up to the guard of `force_move`; the kernels of both experiments (MALA of the stochastic volatility experiment samples from a model without dynamics) |
| C61 | `force_move` in every kernel and experiment | comparison with the Metropolised Gibbs move; the error of a kernel is at most that of its last move |
| C62 | all CSMC kernels, `sampling_routine` | equivariance of every step under rotations of the particles, one rotation per time step |
| C63 | `experiments/lgssm_scaling/experiment.py` as a whole (`Model/ExpRuns`) | law of `vmap` over split keys as a product law (`Lemmas/Replicates`), stationarity (C60), near-invariance from the zero indices (C44, C58, C61, C62); `Poss` for the keys |
| C64 | weights and ancestors of `csmc.forward_pass`, `al_csmc_s`, `atp_csmc_s` | `Poss`; `Spec/Lineage`: sum of the log-weights along every lineage; the resampling function is arbitrary, so any relation it guarantees between weights and ancestors is shown for `weightsOf (log_ws t)` and `As t` |
| C65 | `experiments/stochastic_volatility/experiment.py` as a whole (`Model/SvRuns`) | `Poss` for keys and bounds; `Spec/Stats`: order statistics and linearly interpolated quantiles, independent of sorting |
| C66 | restarts and vectorised chains of the same script | `Spec/Runs` (`longRuns`: uninterrupted runs); a restart only relabels the indices (C62) or recomputes the caches, which every reachable state satisfies (`Lemmas/Supp`: support of a program); `Lemmas/SvChains` |
| C67 | the chains of the same script | finite mass of the target by exponential tilting of Gaussian paths (`Lemmas/SvMass`); near-invariance of every kernel (`Lemmas/SvKernels`, `Lemmas/SvStationary`) |
| C68 | `csmc.kernel` iterated (`sampling_routine`, chains of the script) | `Spec/Ergodic` (bounded weights, offspring of a resampling scheme, moves away from the reference); minorisation by following lineages that avoid the reference (`Lemmas/Minorize*`), coupling of chains (`Lemmas/Doeblin*`) |
| C69 | `get_data` of both experiments | densities `svTarget`, `lgTarget` of `Spec/Experiments`; conditional laws `Spec/Bayes` |
| C70 | all conditional SMC kernels | `Spec/Reach` (sets reached in one step, invariant laws); lineages that avoid the reference have a law that dominates Lebesgue measure (`Lemmas/Reach*`), two invariant laws of such a kernel agree (`Lemmas/Unique`) |
| C71 | `sampling_routine` with all conditional SMC kernels; runs of both experiments | `Spec/Mixing` (starts with a density or almost every fixed start; laws of samples, mean square error of averages). A Markov operator that keeps a law and whose kernels dominate it forgets its start (`Lemmas/Mixing`, no minorisation needed), hence a mean square law of large numbers (`Lemmas/Averages`, `Consistent`, `ConsistentRuns`); independence of the keys (`Lemmas/KeyFree`) |
| C72, C73 | diagnostics (`Model/Diagnostics`): `cross_chains_autocorr`, effective sample sizes | algebra of sample variances; expectations over independent chains (`Lemmas/Unbiased`), `Spec/Averages` |
| C74, C75 | `results_analysis.py` (`Model/ResultsAnalysis`) up to the csv files (figures: C94) | `Spec/Tables` (a table as a relation between labels and numbers); decidable tables of names and file names; C75 false |
| C76, C77, C78 | all conditional SMC kernels, `common.py` | `Spec/Reversible` (law of two successive states). `Lemmas/Sliced`: given all that is drawn before the last index, one step is the last move; `Lemmas/SlicedUse`: consequences; `Lemmas/MovePairs`: the moves; `Props/Reversible` |
| C79, C80 | the same, `mcmc_utils.py: sampling_routine` | `Spec/Reversible` (`RunsReversible`, `PositivelyCorrelated`). `Lemmas/ReversedRuns`: runs of any reversible kernel; `Lemmas/SlicedRuns`: with the Barker move one step is an average over the particles, so its powers are positive; `Props/ReversedRuns` |
| C81 | `mala.py`, `tp.py`, `imh.py: kernel` | `Spec/NearReversible`. `Lemmas/MultiTryRev`: selection among exchangeable candidates is reversible; `Props/MultiTryRev` |
| C82 | the same, `init` | `Spec/OneInvariant`. `Lemmas/MultiTryReach`: positive densities, forced selection leaves every proposal a chance; uniqueness from `Lemmas/Unique`; `Props/MultiTryReach` |
| C83 | `mcmc_utils.py: sampling_routine`, `tp.py: sampling_routine`, `csmc.py`, `imh.py` | `Spec/Settles`. `Lemmas/DoeblinNear`: a contraction forgets the errors of past steps; `Props/Settles` |
| C84 | `csmc.py`, `imh.py`, `common.py: force_move` | `Spec/Settles` (`OnlyInvariantNear`, `SoleInvariantNear`). `Lemmas/DoeblinExists`: the invariant law is the sum over the number of steps since the last draw from the common component; `Props/SoleLaw` |
| C85 | `mcmc_utils.py: sampling_routine`, `tp.py: sampling_routine`, `csmc.py`, `imh.py` | `Spec/RunAverages`. `Lemmas/RunAverages`: covariances decay with the lag from every start; `Props/RunAverages` |
| C86 | all kernels of the package | `Spec/OneInvariant: AtMostOneTraj`; `Props/OneLaw` (from C70 and the relabelling of C52) |
| C87 | `atp_csmc_f.py`, `atp_csmc_s.py` with three steps as parameters | `Spec/RepairedAgrad` (kernels with `prop`, `set`, `par`). `Lemmas/RepairedAtps`, `Lemmas/RepairedAtpsKernel`, `Lemmas/AtpCsmc`; `Props/RepairedAgrad` |
| C88 | `common.py` and `t_atp_csmc_f.py` (tests) | `Props/UnitTests` |
| C89 | `distribute.py`, `distributed_experiment.sh`, file names | `Model/ExpJobs`; `Props/Jobs` |
| C90 | Laws of the proposals of `al_csmc_f`, `l_csmc_f`, `al_csmc_s`, `rw_csmc` | `Spec/Proposals`, `Lemmas/Follow`; `Props/Langevin` |
| C91 | Gradients and proposals of the experiments | `Lemmas/Gradients`; `Props/ExpGradients` |
| C92 | Conditional SMC with many particles: one step is nearly exact | `Spec/ManyParticles`, `Lemmas/ManyParticles`, `Lemmas/ManyKernel`, `Lemmas/ManyLoss`, `Lemmas/Contract`; `Props/ManyParticles` |
| C93 | Smoothing style of MALA_CSMC in the experiments: not invariant with backward sampling | `Spec/Heavy`, `Spec/LgWrong`, `Spec/Dominated`, `Lemmas/HeavyMoves`, `Lemmas/AlsThree`, `Lemmas/LgWrong`, `Lemmas/LgWrongKernel`, `Lemmas/LgWrongFinal` (three times), `Spec/LgWrongLong`, `Lemmas/AlsLong`, `Lemmas/LgWrongLong`, `Lemmas/LgWrongLongKernel`, `Lemmas/LgWrongLongFinal` (four times or more); `Props/LgSmoothing` |
| C94 | `results_analysis.py`: figures (`Model/Figures`) | `Spec/Tables`; `Lemmas/Figures` (stack, selections, merges, averages keep a table a relation), `Props/Figures` |
| C95 | `csmc.kernel` with `conditional=False`; the first trajectory of `stochastic_volatility/experiment.py` | `Spec/Smc` (unbiased resampling, evidence estimate, proper weighting); `Lemmas/Smc` (unbiasedness of abstract particle systems by induction over time, tracing and backward sampling), `Lemmas/SmcKernel`, `Props/Smc` |
| C96 | the whole of `one_experiment` of `stochastic_volatility/experiment.py`: first trajectory, adaptation, burn-in, samples | `Lemmas/Adapted` (the law after the adaptation is a finite mixture over step sizes of laws with densities), `Lemmas/LongAverages` (averages of integrable functions along a run from any start with a density), `Props/WholeRun` |
| C97 | the posterior means and standard deviations reported by `one_experiment` | `Lemmas/SvMoments` (second moments of the posterior), `Lemmas/LongAverages`, `Props/WholeRun` |
| C98 | the acceptance rates and auto-correlations reported by `one_experiment` | `Spec/LagLaws` (joint law of two samples of a stationary run, auto-correlation, acceptance probability), `Lemmas/Martingale`, `Lemmas/LagSums`, `Lemmas/FlaggedChain`, `Lemmas/LagRuns` (averages over flags and over pairs of samples), `Lemmas/RunConv`, `Lemmas/LagAverages`, `Props/Reported` |
| C99 | `one_experiment` with the default `last_step` | `Lemmas/NearRuns` (kernels that are close give runs that are close, through the adaptation and the parallel chains), `Props/DefaultRun` |
| C100 | `one_experiment` with the kernels `MALA` (default) and `TP` | `Lemmas/OneTrajRuns` (a kernel that replaces the whole trajectory, as a kernel with two-valued labels; the routines of `tp.py` then do what those of `mcmc_utils.py` do), `Lemmas/OneTrajKernel`, `Lemmas/OneTrajCand` (the candidates of `mala.kernel` and `tp.kernel`), `Props/OneTrajRun` |
| C101 | `one_experiment` of `lgssm_scaling`: the reported squared jump distances | `Spec/Esjd`, `Lemmas/Esjd` (Chebyshev's inequality), `Lemmas/EsjdMoments` (moments of the posterior: tilting its density shifts it), `Lemmas/EsjdGuard` (the kernels without guard), `Props/Esjd` |
| C102 | `cross_chains_autocorr` of `results_analysis.py` on the energies of `one_experiment` | `Spec/EnergyAcf`, `Lemmas/EnergyAcf` (auto-covariances of a function of the samples), `Lemmas/EnergyMoments` (exponential moments of the posterior, moments of the energy), `Props/EnergyAcf` |
| C103 | `csmc.kernel(conditional=False)` with many particles, start of the stochastic volatility experiment | `Spec/SmcMany`, `Lemmas/SmcMany` (second moment of the evidence estimate along the returned trajectory, by induction over time), `Props/SmcMany` |
| C104 | `imh.kernel` with many proposals, `lgssm_scaling` with many particles, its limit from the Kalman smoother | `Spec/EsjdMany`, `Lemmas/EsjdMany` (truncation of the squared jump), `Lemmas/ImhMany` (self-normalised importance weights), `Lemmas/GaussMoments` (means and traces of Gaussian laws), `Props/EsjdMany` |
| C105 | small step sizes: `mala.kernel`, `tp.get_kernel`, their use in the experiments | `Spec/SmallSteps`, `Lemmas/SmallSteps` (lower bound on the moves of `force_move`, twisted proposals around the auxiliary variable, smoothness of the targets), `Props/SmallSteps` |
| C106 | small step sizes: `rw_csmc.kernel`, `al_csmc_f.kernel`, `l_csmc_f.kernel` with backward sampling, their use in the experiments | `Spec/FlatSteps`, `Lemmas/FlatWeights`, `Lemmas/SmallAux` (nearly equal weights), `Lemmas/FlatKernels`, `Lemmas/FlatSteps`, `Props/FlatSteps` |
| C107 | small step sizes: the same kernels without backward sampling; genealogies under killing and multinomial resampling with nearly equal weights | `Spec/ScanSteps`, `Lemmas/Genealogy` (expected number of lineages that have not met the reference), `Lemmas/FlatSchemes` (offspring numbers, last moves), `Lemmas/ScanSteps`, `Props/ScanSteps` |
| C108 | large step sizes: `rw_csmc.kernel` with and without backward sampling; target rates are bracketed | `Spec/LargeSteps`, `Lemmas/LargeSteps` (odds against the reference, union bound over the backward pass, noise), `Lemmas/FarPotentials`, `Props/LargeSteps` |
| C109 | large step sizes: `mala.kernel` with and without `stop_gradient`; target rates are bracketed | `Spec/SmallSteps`, `Lemmas/LargeTrajSteps` (gaps between log-weights), `Lemmas/CoerciveGrad` (targets strongly concave along lines), `Props/LargeTrajSteps` |
| C110 | large step sizes: `al_csmc_f.kernel` and `l_csmc_f.kernel`, for any gradient functions; target rates are bracketed | `Lemmas/LargeAuxSteps` (bounds on the corrected weights free of the gradients), `Props/LargeAuxSteps` |
| C111 | `mala.kernel`: every target rate is attained up to 3e-12 by some step size | `Lemmas/HitTarget` (the rate of the Metropolised Gibbs move is continuous in the step size; `force_move` is within 3e-12 of it), `Props/HitTarget` |
| C112 | slices of the arrays scanned over time; `al_csmc_s`, `atp_csmc_s` with two time steps | `Spec/PySlice` (python's slices on lists), `Model/ScanReads` (positions read, any `T`), `Props/ScanReads` |
| C54-C56, C58-C60 | experiments | algebra, decidable tables; C54, C55, C56 false for stochastic_volatility |

### Module map

| directory | contents |
|-----------|----------|
| `Core/` | arrays and scans (`Arr`), random programs and their semantics (`Rand`), kernels in the expectation semantics (`KerSem`) |
| `Model/` | the python functions: `Resampling`, `Common`, `Csmc`, `RwCsmc`, `AlCsmcF`, `LCsmcF`, `Mcmc` (drivers), `Pbar`, `Linalg` (`utils/math.py`), `Kalman`, `MultiTry` (`mala`, `tp`, `imh`), `Marginal` (`log_H` of tp_csmc and the simplified ones), `TpCsmc`, `AtpCsmcF`, `TAtpCsmcF`, `AlCsmcS`, `AtpCsmcS` (smoothing gradients, `T >= 3`), `ExpLgssm`, `ExpRuns`, `ExpSv`, `SvRuns` (`model.py`, `kernels.py` and the start of `experiment.py` of the two experiments; `jax.grad` is the Fréchet derivative), `ExpGrid`, `ExpJobs` (`KernelType`, `distribute.py`, job arrays, file names), `Diagnostics`, `ResultsAnalysis` (end of the stochastic volatility script, `results_analysis.py`; plots are not modelled) |
| `Spec/` | vocabulary in which the properties are stated, independent of the model: laws, invariance, Gaussian densities, singular value decompositions (`Svd`; `jnp.linalg.svd` is a parameter of the model constrained by it), Gaussian state-space targets (`GaussModel`), marginalised proposals (`Marginal`), reversed dynamics (`Twisted`), posteriors of the experiments (`Experiments`), chains, progress bars, key freshness, total variation (`Near`) |
| `Lemmas/` | auxiliary results: invariance of conditional SMC (`Csmc*`), of its auxiliary-variable, marginalised and twisted versions (`Aux*`, `AlCsmc`, `Marg*`, `Tp*`, `Atp*`, `TAtp`), of the second-order extended target of the smoothing kernels (`SecondOrder*`, `Als*`) and of the multi-try kernels (`MultiTry*`); Gaussian laws (`*Gauss*`, `Kalman*`, `Chol`, `Svd`); total variation (`Near*`, `MoveError`); executions (`Runs`, `ScanRules`, `Schemes`) |
| `Props/` | the property theorems, each with an example instantiating its hypotheses |

## 3. Disagreements found between intended properties and the code

1. `atp_csmc_s.kernel` never writes `x_star` into the particle arrays (lines 213-255): the kernel is not conditional (C29) and does not leave its
   target invariant (C29_not_invariant).
2. `al_csmc_s.py:232`, `atp_csmc_s.py:286`: `x0[As[1]]` should be `x0` (already resampled): parents of the
   particles of time 1 are wrong in the backward sampling pass (C26), and `al_csmc_s` with backward sampling does not leave
   its target invariant (C27_not_invariant; C93: on the linear Gaussian model of the experiments, at their default settings
   and any number of observations from three on, one step from the posterior gives a law not bounded by any multiple of it). Repaired (1, 2 and 4), the kernels leave their targets invariant
   (C27_repaired_invariant, C87).
3. `t_atp_csmc_f.py:315-316`: `F.T m - F.T b`, `F.T P F + Q` instead of `F m + b`, `F P F.T + Q` (C36);
   `_get_gain` (lines 323-324) returns `F P S^-1` instead of `P F.T S^-1`. The kernel is then invariant for the process of
   these reversed dynamics and for no other law (C57, C70): for a random walk with drift it does not keep its target.
4. `atp_csmc_f.py:153`: `chol_inv` is the transpose of the inverse of `chol`; `mvn_logpdf` evaluated with
   it is the density of the sampler, up to a constant, exactly when the covariance is the diagonal matrix of its singular
   values in the order of `svd` (C33): false for `[[2, 1], [1, 2]]` and for `diag(1, 2)`, true for `q I`. The kernel then does
   not leave its target invariant (C34: for one time step and a flat potential, invariance is equivalent to that condition).
5. `force_move`'s `alpha` is only an upper bound of the acceptance probability (C10); its guard branch breaks exact
   reversibility (C08/C09), by less than 2e-12.
6. `_log_1_m_exp` returns `log(exp(max) - exp(a))` (C11).
7. stochastic_volatility `get_dynamics`: `b = mu + F mu` instead of `mu - F mu` (C54).
8. stochastic_volatility `log_pdf`: the einsum multiplies by `b` instead of adding it (C55).
9. lgssm `get_data`: `init_key` used for two draws, `sampling_key` unused (C53).
10. stochastic_volatility `distribute.py`: `KERNELS` (18) and `STYLES` (14) are zipped, misaligned (C56).
11. stochastic_volatility `get_data`: `solve(chol, eye, assume_a="pos")` reads the upper triangle of a lower triangular
    factor, so that the result is the inverse of its diagonal (C59); the reported energies use it.
12. stochastic_volatility `experiment.py`: `acf_all` has `N_LAGS + 1` rows but `tfp.stats.auto_correlation` returns at most as
    many lags as there are samples: with 2 to 1000 samples the script stops after all chains have been run (C72).
13. stochastic_volatility `results_analysis.py` reads files for five kernels that `distribute.py` never runs (C75).
14. stochastic_volatility `distributed_experiment.sh` starts jobs 0-7 of 56; two of the eight write the same file (C75, C89). `debug.sh` of
    lgssm_scaling starts the stochastic volatility script.
15. With `--no-backward` and multinomial resampling, the acceptance rate at time `t` is at most about `(N / (N + 1)) ^ (T - 1 - t)` however small the
    step sizes: the adaptation of the step sizes cannot reach targets such as 0.75 at early times (C107_missed).
16. `al_csmc_s.py:340-349`, `atp_csmc_s.py:397-406`: with two time steps and backward sampling the kernels return three states (C112).

### Domain of the models of `al_csmc_s` and `atp_csmc_s`
The models have `T = n + 3 >= 3` time steps. For `T = 2` and `backward=True` the code returns trajectories of length three
(`xs_m_1[-2]`, `params_t[-2]` are clamped), so that `sampling_routine` stops: the lengths and positions are modelled in `Model/ScanReads`
(C112), the values are not.

## 4. Trusted base

* the Lean 4 kernel (and its re-check by the gate), the axioms `propext`, `Classical.choice`, `Quot.sound`;
* Mathlib's definitions of measures, kernels, Gaussians, matrices;
* the faithfulness of the model to the python text (section 1; file and lines cited at each definition);
* `jax` itself; `tensorflow_probability`, whose `auto_correlation`, `effective_sample_size` and `_reduce_variance` are modelled
  after their documentation; `pandas` before version 3 for the assignments to columns.
