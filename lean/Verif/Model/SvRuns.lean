import Mathlib.Data.List.Sort
import Verif.Model.ExpRuns
import Verif.Model.ExpSv
import Verif.Model.Mcmc

/-!
# `experiments/stochastic_volatility/experiment.py`

The script that adapts a kernel on the stochastic volatility model and then runs `M` chains from the adapted state.
`T = n + 1`.  Effective sample sizes and auto-correlations are in `Model/Diagnostics`; timings are not modelled.
-/

namespace Verif.Model
open Verif Matrix

variable {m : Type → Type} [RandM m] {N n d M : ℕ}

/-! ## Target of the adaptation -/

/-- `TARGET_STAT`: a name or a level (`/repo/experiments/stochastic_volatility/experiment.py:97-100`). -/
inductive TargetStat
  | name (s : String)
  | level (q : ℝ)

/-- Value of a decimal digit. -/
def digitVal (c : Char) : ℕ := c.toNat - '0'.toNat

/-- `args.target_stat.isnumeric()`, for ASCII strings: not empty, and digits only. -/
def isNumeric (s : String) : Bool := !s.toList.isEmpty && s.toList.all Char.isDigit

/-- `float(s)` for a string of digits. -/
def floatOf (s : String) : ℕ := s.toList.foldl (fun a c => 10 * a + digitVal c) 0

/-- `TARGET_STAT`: `/repo/experiments/stochastic_volatility/experiment.py:97-100`. -/
noncomputable def target_stat_of (arg : String) : TargetStat :=
  if isNumeric arg then .level ((floatOf arg : ℝ) / 100) else .name arg

/-- The entries that are not `NaN`, in increasing order. -/
noncomputable def sortedVals {k : ℕ} (h : Fin k → Option ℝ) : List ℝ :=
  ((List.ofFn h).filterMap id).insertionSort (· ≤ ·)

/-- `jnp.quantile(a, q)` of a sorted non-empty array of length `a.length`, linear interpolation, indices clamped. -/
noncomputable def quantileOf (a : List ℝ) (q : ℝ) : ℝ :=
  let last : ℤ := a.length - 1
  let pos := q * last
  let low := ⌊pos⌋
  let high := ⌈pos⌉
  let high_weight := pos - low
  let low_weight := 1 - high_weight
  let low := min (max low 0) last
  let high := min (max high 0) last
  a.getD low.toNat 0 * low_weight + a.getD high.toNat 0 * high_weight

open Classical in
/-- A reduction that is `NaN` as soon as one entry is (`jnp.max`, `jnp.min`, `jnp.quantile`). -/
noncomputable def strict {k : ℕ} (f : List ℝ → ℝ) (h : Fin k → Option ℝ) : Option ℝ :=
  if ∀ i, (h i).isSome then some (f (sortedVals h)) else none

/-- `jnp.nanmedian`: `NaN` when every entry is. -/
noncomputable def nanmedian {k : ℕ} (h : Fin k → Option ℝ) : Option ℝ :=
  if sortedVals h = [] then none else some (quantileOf (sortedVals h) 0.5)

/-- The reduction over the coordinates chosen by `target_stat`: `/repo/gradient_csmc/t_atp_csmc_f.py:266-275`.  A name
that is not listed reaches `jnp.quantile`, which raises `TypeError`. -/
noncomputable def statOf {k : ℕ} (target_stat : TargetStat) : Except String ((Fin k → Option ℝ) → Option ℝ) :=
  match target_stat with
  | .name s =>
    if s = "mean" then .ok nanmean
    else if s = "median" then .ok nanmedian
    else if s = "max" then .ok (strict fun a => a.getLastD 0)
    else if s = "min" then .ok (strict fun a => a.headD 0)
    else .error "TypeError"
  | .level q => .ok (strict fun a => quantileOf a q)

/-! ## Constants -/

/-- `TARGET_ALPHA`, `MIN_DELTA`, `MAX_DELTA`, `MIN_RATE`, `ADAPTATION_RATE`:
`/repo/experiments/stochastic_volatility/experiment.py:18-22, 96`. -/
noncomputable def svCfg (target : ℤ) : AdaptCfg := ⟨(target : ℝ) / 100, 1e-5, 1e1, 1e-3, 0.5⟩

/-- `ADAPTATION_WINDOW = 100`, one less (`/repo/experiments/stochastic_volatility/experiment.py:21`). -/
def svWindow : ℕ := 99

/-- `m0, P0, F, Q, b` of the script: `/repo/experiments/stochastic_volatility/experiment.py:92-95`. -/
noncomputable def svDynArgs (tau : ℤ) (d : ℕ) : SvDyn d := get_dynamics 0 0.90 ((tau : ℝ) / 100) 0.25 d

/-! ## Kernels -/

/-- `kernel, init, adaptation_loop, experiment_loop` returned by a kernel constructor: the type of states, what one call
of the kernel returns, the flag of one step; the four functions (the experiment loop with `get_samples` false, of which
only the first output is used, and true); the acceptance of one step as floats. -/
structure SvKernel (m : Type → Type) (T d : ℕ) : Type 1 where
  S : Type
  O : Type
  F : Type
  kernel : Key → S → StepSize T → m O
  init : Traj T d → S
  adaptation_loop : Key → S → (Key → S → StepSize T → m O) → AdaptCfg → ℕ → ℝ → ℕ → m (S × StepSize T)
  experiment_last : Key → S → (Key → S → m O) → ℕ → m (Traj T d)
  experiment_all : Key → S → (Key → S → m O) → (n_steps : ℕ) →
    m ((Fin (strideLen n_steps 1) → Traj T d) × (Fin (strideLen n_steps 1) → F))
  pct : F → Fin T → ℝ

/-- A conditional SMC kernel: `init = lambda x: (x, jnp.zeros((x.shape[0],), dtype=int))`, and the routines of
`mcmc_utils.py` (`/repo/experiments/stochastic_volatility/kernels.py:128-141, 175-190, 220-235, 258-273`).  `adapt` is
the adaptation routine. -/
def csmcSv (adapt : Key → (Fin (n + 1) → Vec d) → (Fin (n + 1) → Fin (N + 1)) →
      (Key → (Fin (n + 1) → Vec d) × (Fin (n + 1) → Fin (N + 1)) → (Fin (n + 1) → ℝ) →
        m ((Fin (n + 1) → Vec d) × (Fin (n + 1) → Fin (N + 1)))) → AdaptCfg → ℕ → (Fin (n + 1) → ℝ) → ℕ →
      m (((Fin (n + 1) → Vec d) × (Fin (n + 1) → Fin (N + 1))) × (Fin (n + 1) → ℝ)))
    (kernel : Key → (Fin (n + 1) → Vec d) → (Fin (n + 1) → Fin (N + 1)) → (Fin (n + 1) → ℝ) →
      m ((Fin (n + 1) → Vec d) × (Fin (n + 1) → Fin (N + 1)))) : SvKernel m (n + 1) d where
  S := (Fin (n + 1) → Vec d) × (Fin (n + 1) → Fin (N + 1))
  O := (Fin (n + 1) → Vec d) × (Fin (n + 1) → Fin (N + 1))
  F := Fin (n + 1) → Bool
  kernel key s delta := kernel key s.1 s.2 delta.at
  init x := (x, fun _ => 0)
  adaptation_loop key state kernel_ cfg W initial_delta n_steps := do
    let r ← adapt key state.1 state.2 (fun k s deltas => kernel_ k s (.perStep deltas)) cfg W (fun _ => initial_delta * 1)
      n_steps
    pure (r.1, .perStep r.2)
  experiment_last key state kernel_ n_steps := do
    let r ← sampling_routine_last key state.1 state.2 kernel_ n_steps
    pure r.1
  experiment_all key state kernel_ n_steps := sampling_routine key state.1 state.2 kernel_ n_steps 1
  pct flags t := boolF (flags t)

/-- `adaptation_routine` with `mcmc_utils.delta_adaptation_routine`: every style but `twisted`
(`/repo/experiments/stochastic_volatility/kernels.py:136-139, 187-188, 230-233, 268-271`). -/
noncomputable def csmcSvPlain (kernel : Key → (Fin (n + 1) → Vec d) → (Fin (n + 1) → Fin (N + 1)) → (Fin (n + 1) → ℝ) →
      m ((Fin (n + 1) → Vec d) × (Fin (n + 1) → Fin (N + 1)))) : SvKernel m (n + 1) d :=
  csmcSv (fun key xs bs k cfg W deltas n_steps => delta_adaptation_routine key xs bs k cfg W deltas n_steps) kernel

/-- `adaptation_routine` with `t_atp_csmc_f.delta_adaptation_routine`: style `twisted`
(`/repo/experiments/stochastic_volatility/kernels.py:183-186`). -/
noncomputable def csmcSvTwisted (stat : (Fin (n + 1) → Option ℝ) → Option ℝ)
    (kernel : Key → (Fin (n + 1) → Vec d) → (Fin (n + 1) → Fin (N + 1)) → (Fin (n + 1) → ℝ) →
      m ((Fin (n + 1) → Vec d) × (Fin (n + 1) → Fin (N + 1)))) : SvKernel m (n + 1) d :=
  csmcSv (fun key xs bs k cfg W deltas n_steps => t_delta_adaptation_routine key xs bs k cfg stat W deltas n_steps) kernel

/-- A kernel whose states carry the log-density and its gradient, with the routines of `tp.py`
(`/repo/experiments/stochastic_volatility/kernels.py:58-94`, `/repo/gradient_csmc/mala.py:12-13`). -/
noncomputable def vgSv (kernel : Key → VGState (n + 1) d → ℝ → m (VGState (n + 1) d × Bool))
    (init : Traj (n + 1) d → VGState (n + 1) d) : SvKernel m (n + 1) d where
  S := VGState (n + 1) d
  O := VGState (n + 1) d × Bool
  F := Bool
  kernel key s delta := kernel key s delta.num
  init := init
  adaptation_loop key state kernel_ cfg W initial_delta n_steps := do
    let r ← tp_delta_adaptation_routine key state (fun k s delta => kernel_ k s (.scalar delta)) cfg W initial_delta n_steps
    pure (r.1, .scalar r.2)
  experiment_last key state kernel_ n_steps := do
    let r ← tp_sampling_routine_last key state kernel_ n_steps
    pure r.1
  experiment_all key state kernel_ n_steps := tp_sampling_routine key state kernel_ n_steps 1
  pct flag _ := boolF flag

/-- `KernelType`: `/repo/experiments/stochastic_volatility/kernels.py:24-31`. -/
inductive SvType
  | CSMC | TP | TP_CSMC | MALA_CSMC | ADAPTED_CSMC | RW_CSMC | MALA
  deriving DecidableEq

/-- `KernelType(value)`: `/repo/experiments/stochastic_volatility/kernels.py:24-31`, `ValueError` for other values. -/
def SvType.ofValue : ℕ → Except String SvType
  | 0 => .ok .CSMC
  | 1 => .ok .TP
  | 2 => .ok .TP_CSMC
  | 3 => .ok .MALA_CSMC
  | 4 => .ok .ADAPTED_CSMC
  | 5 => .ok .RW_CSMC
  | 6 => .ok .MALA
  | _ => .error "ValueError"

/-- `get_csmc_kernel`: `/repo/experiments/stochastic_volatility/kernels.py:97-141`. -/
noncomputable def sv_get_csmc_kernel (D : SvDyn d) (style : String) (resampling : Resampling m N)
    (ancestor_move : AncestorMove m N) (backward : Bool) : Except String (Traj (n + 1) d → SvKernel m (n + 1) d) :=
  if style = "bootstrap" then .ok fun ys =>
    csmcSvPlain fun key x b _ => outOf (sv_csmc_kernel ys D resampling ancestor_move backward true key x b)
  else .error "NotImplementedError"

/-- `get_tp_csmc_kernel(style='smoothing')`: `/repo/experiments/stochastic_volatility/kernels.py:144-190`.  `rt` does not
depend on its first argument.  Modelled for `T ≥ 3`. -/
noncomputable def sv_tp_csmc_smoothing (svd : Mat d d → SvdOut d) (D : SvDyn d) (stop_gradient : Bool)
    (resampling : Resampling m N) (ancestor_move : AncestorMove m N) (backward : Bool) :
    {n : ℕ} → Except String (Traj (n + 1) d → SvKernel m (n + 1) d)
  | _ + 2 => .ok fun ys => csmcSvPlain fun key x b delta =>
    atps_kernel svd (svGauss ys D stop_gradient) (fun x' x y => jaxGrad (fun _ => sv_log_potential x y) x') key x b
      delta delta resampling ancestor_move backward
  | _ => .error "not modelled"

/-- `get_tp_csmc_kernel`: `/repo/experiments/stochastic_volatility/kernels.py:144-190`.  An unknown name of the target
statistic stops the run only for style `twisted`, when the adaptation is traced. -/
noncomputable def sv_get_tp_csmc_kernel (svd : Mat d d → SvdOut d) (D : SvDyn d) (style : String) (target_stat : TargetStat)
    (stop_gradient : Bool) (resampling : Resampling m N) (ancestor_move : AncestorMove m N) (backward : Bool) :
    Except String (Traj (n + 1) d → SvKernel m (n + 1) d) :=
  if style = "marginal" then .ok fun ys => csmcSvPlain fun key x b delta =>
    outOf (sv_tp_csmc_marginal svd ys D stop_gradient resampling ancestor_move backward key x b delta)
  else if style = "filtering" then .ok fun ys => csmcSvPlain fun key x b delta =>
    outOf (sv_tp_csmc_filtering svd ys D stop_gradient resampling ancestor_move backward key x b delta)
  else if style = "smoothing" then sv_tp_csmc_smoothing svd D stop_gradient resampling ancestor_move backward
  else if style = "twisted" then
    match statOf target_stat with
    | .error e => .error e
    | .ok stat => .ok fun ys => csmcSvTwisted stat fun key x b delta =>
      outOf (sv_tp_csmc_twisted ys D stop_gradient resampling ancestor_move backward key x b delta)
  else .error "NotImplementedError"

/-- `get_mala_csmc_kernel(style='smoothing')`: `/repo/experiments/stochastic_volatility/kernels.py:193-235`.  Modelled
for `T ≥ 3`. -/
noncomputable def sv_mala_csmc_smoothing (D : SvDyn d)
    (resampling : Resampling m N) (ancestor_move : AncestorMove m N) (backward : Bool) :
    {n : ℕ} → Except String (Traj (n + 1) d → SvKernel m (n + 1) d)
  | _ + 2 => .ok fun ys => csmcSvPlain fun key x b delta =>
    outOf (als_kernel key x b (svGamma_0 ys D) (jaxGrad (svGamma_0 ys D)) (svGamma_t D)
      (fun x' x y => jaxGrad (fun x' => svGamma_t D x' x y) x') (fun x' x y => jaxGrad (fun x => svGamma_t D x' x y) x)
      (tailA ys) delta delta resampling ancestor_move backward)
  | _ => .error "not modelled"

/-- `get_mala_csmc_kernel`: `/repo/experiments/stochastic_volatility/kernels.py:193-235`. -/
noncomputable def sv_get_mala_csmc_kernel (D : SvDyn d) (style : String) (resampling : Resampling m N)
    (ancestor_move : AncestorMove m N) (backward : Bool) : Except String (Traj (n + 1) d → SvKernel m (n + 1) d) :=
  if style = "filtering" then .ok fun ys => csmcSvPlain fun key x b delta =>
    outOf (sv_mala_csmc_filtering ys D resampling ancestor_move backward key x b delta)
  else if style = "smoothing" then sv_mala_csmc_smoothing D resampling ancestor_move backward
  else if style = "marginal" then .ok fun ys => csmcSvPlain fun key x b delta =>
    outOf (sv_mala_csmc_marginal ys D resampling ancestor_move backward key x b delta)
  else .error "NotImplementedError"

/-- `get_rw_csmc_kernel`: `/repo/experiments/stochastic_volatility/kernels.py:238-273`; it drops the style. -/
noncomputable def sv_get_rw_csmc_kernel (D : SvDyn d) (resampling : Resampling m N)
    (ancestor_move : AncestorMove m N) (backward : Bool) : Except String (Traj (n + 1) d → SvKernel m (n + 1) d) :=
  .ok fun ys => csmcSvPlain fun key x b delta =>
    outOf (sv_rw_csmc (fun _ => true) ys D resampling ancestor_move backward key x b delta)

/-- `get_tp_kernel`: `/repo/experiments/stochastic_volatility/kernels.py:58-71`; it ignores the style, the resampling, the
last step and `backward`. -/
noncomputable def sv_get_tp_kernel (D : SvDyn d) (N : ℕ) : Except String (Traj (n + 1) d → SvKernel m (n + 1) d) :=
  .ok fun ys => vgSv (sv_tp_kernel ys D N)
    (tp_init (fun xs => sv_log_likelihood xs ys) (jaxGrad2 fun xs => sv_log_likelihood xs ys))

/-- `get_mala_kernel`: `/repo/experiments/stochastic_volatility/kernels.py:74-94`. -/
noncomputable def sv_get_mala_kernel (D : SvDyn d) (N : ℕ) (style : String) :
    Except String (Traj (n + 1) d → SvKernel m (n + 1) d) :=
  if style = "marginal" then .ok fun ys =>
    vgSv (sv_mala_kernel ys D N false) (tp_init (svFullLogPdf ys D) (jaxGrad2 (svFullLogPdf ys D)))
  else if style = "auxiliary" then .ok fun ys =>
    vgSv (sv_mala_kernel ys D N true) (tp_init (svFullLogPdf ys D) (jaxGrad2 (svFullLogPdf ys D)))
  else .error "NotImplementedError"

/-- `kernel_type.kernel_maker(ys, m0, P0, F, Q, b, N=…, resampling_func=…, backward=…, ancestor_move_func=…, style=…)`:
`/repo/experiments/stochastic_volatility/kernels.py:33-50`, `/repo/experiments/stochastic_volatility/experiment.py:130-134`. -/
noncomputable def SvType.kernel_maker (svd : Mat d d → SvdOut d) (k : SvType) (D : SvDyn d) (style : String)
    (target_stat : TargetStat) (resampling : Resampling m N) (ancestor_move : AncestorMove m N) (backward : Bool) :
    Except String (Traj (n + 1) d → SvKernel m (n + 1) d) :=
  match k with
  | .TP => sv_get_tp_kernel D N
  | .CSMC => sv_get_csmc_kernel D style resampling ancestor_move backward
  | .TP_CSMC => sv_get_tp_csmc_kernel svd D style target_stat false resampling ancestor_move backward
  | .MALA_CSMC => sv_get_mala_csmc_kernel D style resampling ancestor_move backward
  | .ADAPTED_CSMC => sv_get_tp_csmc_kernel svd D style target_stat true resampling ancestor_move backward
  | .RW_CSMC => sv_get_rw_csmc_kernel D resampling ancestor_move backward
  | .MALA => sv_get_mala_kernel D N style

/-! ## One experiment -/

/-- The `M` chains after the adaptation: a burn-in of which only the last trajectory is kept, `init` of that trajectory,
and the samples; the result is indexed by the chain (`out_axes=1` puts it second in the arrays).
`/repo/experiments/stochastic_volatility/experiment.py:163-183`. -/
def sv_chains {T : ℕ} (burnin_key sample_key : Key) (K : SvKernel m T d) (adaptation_state : K.S)
    (adapted_delta : StepSize T) (burnin n_samples M : ℕ) :
    m (Fin M → (Fin (strideLen n_samples 1) → Traj T d) × (Fin (strideLen n_samples 1) → K.F)) := do
  let delta_kernel := fun k_ s => K.kernel k_ s adapted_delta
  let burnin_keys := splitKey burnin_key M
  let sample_keys := splitKey sample_key M
  let burnin_samples ← vmapM (fun key => K.experiment_last key adaptation_state delta_kernel burnin) burnin_keys
  let burnin_states := fun i => K.init (burnin_samples i)
  vmapM (fun p : Key × K.S => K.experiment_all p.1 p.2 delta_kernel n_samples) (fun i => (sample_keys i, burnin_states i))

/-- What `one_experiment` returns, without effective sample sizes, times and auto-correlations. -/
structure SvOut (n_samples M T d : ℕ) where
  means : Fin M → Fin T → Vec d
  std_devs : Fin M → Fin T → Vec d
  final_pct : Fin M → Fin T → ℝ
  energy : Fin n_samples → Fin M → ℝ
  init_xs : Fin T → Vec d
  true_xs : Fin T → Vec d
  ys : Fin T → Vec d
  adapted_delta : StepSize T

/-- `jnp.mean(a, 0)` of numbers (`n ≥ 1`). -/
noncomputable def meanA {k : ℕ} (a : Fin k → ℝ) : ℝ := (∑ i, a i) / k

/-- `jnp.std(a, 0)` of numbers (`n ≥ 1`). -/
noncomputable def stdA {k : ℕ} (a : Fin k → ℝ) : ℝ := Real.sqrt (meanA fun i => (a i - meanA a) ^ 2)

/-- The arrays computed from the chains: `/repo/experiments/stochastic_volatility/experiment.py:185-206`.  A flag per step
and chain is broadcast along the time steps before the mean, instead of after it. -/
noncomputable def sv_summary {F : Type} {n_samples : ℕ} (pct : F → Fin (n + 1) → ℝ) (data : SvData (n + 1) d) (D : SvDyn d)
    (init_xs : Fin (n + 1) → Vec d) (adapted_delta : StepSize (n + 1))
    (chains : Fin M → (Fin n_samples → Traj (n + 1) d) × (Fin n_samples → F)) : SvOut n_samples M (n + 1) d where
  means i t j := meanA fun k => (chains i).1 k t j
  std_devs i t j := stdA fun k => (chains i).1 k t j
  final_pct i t := (meanA fun k => pct ((chains i).2 k) t) * 1
  energy k i := sv_log_pdf ((chains i).1 k) data.ys D.m0 data.inv_chol_P0 D.F data.inv_chol_Q D.b
  init_xs := init_xs
  true_xs := data.xs
  ys := data.ys
  adapted_delta := adapted_delta

/-- `one_experiment` after the data have been drawn: `/repo/experiments/stochastic_volatility/experiment.py:136-206`. -/
noncomputable def sv_run (init_key adaptation_key burnin_key sample_key : Key) (D : SvDyn d) (data : SvData (n + 1) d)
    (K : SvKernel m (n + 1) d) (resampling : Resampling m N) (last_step : AncestorMove m N) (cfg : AdaptCfg)
    (delta_init : ℝ) (adaptation burnin n_samples M : ℕ) : m (SvOut (strideLen n_samples 1) M (n + 1) d) := do
  let init_xs ← sv_init init_key data.ys D resampling last_step data.xs
  let init_state := K.init init_xs
  let r ← K.adaptation_loop adaptation_key init_state K.kernel cfg svWindow delta_init adaptation
  let adaptation_state := r.1
  let adapted_delta := r.2
  let chains ← sv_chains burnin_key sample_key K adaptation_state adapted_delta burnin n_samples M
  pure (sv_summary K.pct data D init_xs adapted_delta chains)

/-- The command line (`/repo/experiments/stochastic_volatility/experiment.py:27-68`); `T = n + 1`. -/
structure SvArgs where
  D : ℕ
  K : ℕ
  M : ℕ
  tau : ℤ
  n_samples : ℕ
  adaptation : ℕ
  burnin : ℕ
  delta_init : ℝ
  target : ℤ
  target_stat : String
  kernel : ℕ
  style : String
  backward : Bool
  resampling : String
  last_step : String
  N : ℕ

/-- `one_experiment`: `/repo/experiments/stochastic_volatility/experiment.py:124-206`. -/
noncomputable def sv_one_experiment (key : Key) (n : ℕ) (args : SvArgs) (resampling_fn : Resampling m args.N)
    (last_step_fn : AncestorMove m args.N) (make : Traj (n + 1) args.D → SvKernel m (n + 1) args.D) :
    m (SvOut (strideLen args.n_samples 1) args.M (n + 1) args.D) := do
  let keys := splitKey key 5
  let data_key := keys 0
  let init_key := keys 1
  let adaptation_key := keys 2
  let burnin_key := keys 3
  let sample_key := keys 4
  let data ← sv_get_data data_key 0 0.90 ((args.tau : ℝ) / 100) 0.25 args.D (n + 1)
  sv_run init_key adaptation_key burnin_key sample_key (svDynArgs args.tau args.D) data (make data.ys) resampling_fn
    last_step_fn (svCfg args.target) args.delta_init args.adaptation args.burnin args.n_samples args.M

/-- What is saved of one experiment: `adapted_delta_k * np.ones((args.T,))`, the rest as it is
(`/repo/experiments/stochastic_volatility/experiment.py:222-240`). -/
def SvOut.saved {n_samples M T d : ℕ} (o : SvOut n_samples M T d) : SvOut n_samples M T d :=
  { o with adapted_delta := .perStep fun t => o.adapted_delta.at t * 1 }

/-- The script: the arrays that are saved, or the error that stops it (for `K ≥ 1`; the style is checked inside
`one_experiment`).  `/repo/experiments/stochastic_volatility/experiment.py:71-240`. -/
noncomputable def sv_script (svd : ∀ d, Mat d d → SvdOut d) (seed : Key) (n : ℕ) (args : SvArgs) :
    Except String (m (Fin args.K → SvOut (strideLen args.n_samples 1) args.M (n + 1) args.D)) := do
  let kernel_type ← SvType.ofValue args.kernel
  let TARGET_STAT := target_stat_of args.target_stat
  let resampling_fn ← sel_resampling (m := m) (N := args.N) args.resampling
  let last_step_fn ← sel_last_step (m := m) (N := args.N) args.last_step
  match kernel_type.kernel_maker (n := n) (svd args.D) (svDynArgs args.tau args.D) args.style TARGET_STAT resampling_fn
      last_step_fn args.backward with
  | .error e => .error e
  | .ok make =>
    let EXPERIMENT_KEYS := splitKey seed args.K
    .ok (vmapM (fun key => do
      let o ← sv_one_experiment key n args resampling_fn last_step_fn make
      pure o.saved) EXPERIMENT_KEYS)

end Verif.Model
