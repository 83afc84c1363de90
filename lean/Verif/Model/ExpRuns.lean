import Mathlib.Analysis.SpecialFunctions.Pow.Real
import Verif.Model.ExpLgssm
import Verif.Model.AlCsmcS
import Verif.Model.AtpCsmcS

/-!
# `experiments/lgssm_scaling/experiment.py`

The script that measures the expected squared jump distance of the kernels started at stationarity.  `T = n + 1`.
-/

namespace Verif.Model
open Verif Matrix

variable {m : Type → Type} [RandM m] {N n d M : ℕ}

/-- `jax.vmap(f)(xs)` for a function that draws random numbers from the keys among its arguments
(`/repo/experiments/lgssm_scaling/experiment.py:148`, `/repo/experiments/stochastic_volatility/experiment.py:171, 182`). -/
def vmapM {I O : Type} (f : I → m O) (xs : Fin M → I) : m (Fin M → O) := do
  let r ← scanM (fun (_ : Unit) x => do
    let o ← f x
    pure ((), o)) () xs
  pure r.2

/-- `KernelType`: `/repo/experiments/lgssm_scaling/kernels.py:24-33`. -/
inductive LgType
  | CSMC | TP | TP_CSMC | MALA_CSMC | ADAPTED_CSMC | RW_CSMC | MALA | RW | IMH
  deriving DecidableEq

/-- `KernelType(value)`: `/repo/experiments/lgssm_scaling/kernels.py:24-33`, which raises `ValueError` for other values. -/
def LgType.ofValue : ℕ → Except String LgType
  | 0 => .ok .CSMC
  | 1 => .ok .TP
  | 2 => .ok .TP_CSMC
  | 3 => .ok .MALA_CSMC
  | 4 => .ok .ADAPTED_CSMC
  | 5 => .ok .RW_CSMC
  | 6 => .ok .MALA
  | 7 => .ok .RW
  | 8 => .ok .IMH
  | _ => .error "ValueError"

/-- A step size: a number or one number per time step (`/repo/experiments/lgssm_scaling/kernels.py:58-76`). -/
inductive StepSize (T : ℕ)
  | scalar (delta : ℝ)
  | perStep (deltas : Fin T → ℝ)

/-- `shape_delta`: `/repo/experiments/lgssm_scaling/kernels.py:58-76`. -/
def LgType.shape_delta (k : LgType) (delta : ℝ) (T : ℕ) : StepSize T :=
  match k with
  | .TP => .scalar delta
  | .CSMC => .scalar delta
  | .TP_CSMC => .perStep fun _ => delta * 1
  | .MALA_CSMC => .perStep fun _ => delta * 1
  | .ADAPTED_CSMC => .perStep fun _ => delta * 1
  | .RW_CSMC => .perStep fun _ => delta * 1
  | .RW => .scalar delta
  | .IMH => .scalar delta
  | .MALA => .scalar delta

/-- `DELTA`, before `shape_delta`: `/repo/experiments/lgssm_scaling/experiment.py:76-83`. -/
noncomputable def lg_delta (delta_arg : String) (delta delta_scale : ℝ) (D T : ℕ) : ℝ :=
  if delta_arg = "D" then delta / (D : ℝ) ^ delta_scale
  else if delta_arg = "T" then delta / (T : ℝ) ^ delta_scale
  else if delta_arg = "DT" ∨ delta_arg = "TD" then delta / ((D * T : ℕ) : ℝ) ^ delta_scale
  else delta

/-- `SIGMA`: `/repo/experiments/lgssm_scaling/experiment.py:101`. -/
noncomputable def lg_sigma (log_var : ℝ) : ℝ := (10 : ℝ) ^ (log_var / 2)

/-- `resampling_fn`: `/repo/experiments/lgssm_scaling/experiment.py:85-90`,
`/repo/experiments/stochastic_volatility/experiment.py:102-107`. -/
noncomputable def sel_resampling (resampling : String) : Except String (Resampling m N) :=
  if resampling = "killing" then .ok fun key w i j c => killing key w i j c
  else if resampling = "multinomial" then .ok fun key w i j c => multinomial key w i j c
  else .error "ValueError"

/-- `last_step_fn`: `/repo/experiments/lgssm_scaling/experiment.py:92-97`,
`/repo/experiments/stochastic_volatility/experiment.py:109-114`. -/
noncomputable def sel_last_step (last_step : String) : Except String (AncestorMove m N) :=
  if last_step = "forced" then .ok fun key w k => force_move key w k
  else if last_step = "barker" then .ok fun key w k => barker_move key w k
  else .error "ValueError"

/-- The pair `kernel, init` returned by a kernel constructor: the type of states, the trajectory of a state (its first
component), one step from a state, and `init`. -/
structure KernelPair (m : Type → Type) (T d : ℕ) : Type 1 where
  S : Type
  xs : S → Traj T d
  kernel : Key → S → StepSize T → m S
  init : Traj T d → S

/-- `delta[t]` for an array of step sizes; the kernels that index their step size are given an array by `shape_delta`
(a number is broadcast). -/
def StepSize.at {T : ℕ} (s : StepSize T) : Fin T → ℝ :=
  match s with
  | .scalar delta => fun _ => delta
  | .perStep deltas => deltas

/-- A step size for the kernels of `tp.py` and `mala.py`, which are given a number by `shape_delta`. -/
noncomputable def StepSize.num {T : ℕ} (s : StepSize (T + 1)) : ℝ :=
  match s with
  | .scalar delta => delta
  | .perStep deltas => deltas 0

/-- The pair of a conditional SMC kernel, with states (trajectory, indices), and
`init = lambda x: (x, jnp.zeros((x.shape[0],), dtype=int))`
(`/repo/experiments/lgssm_scaling/kernels.py:151-155, 195-199, 224-226, 245-247`). -/
def csmcPair (kernel : Key → (Fin (n + 1) → Vec d) → (Fin (n + 1) → Fin (N + 1)) → (Fin (n + 1) → ℝ) →
    m ((Fin (n + 1) → Vec d) × (Fin (n + 1) → Fin (N + 1)))) : KernelPair m (n + 1) d where
  S := (Fin (n + 1) → Vec d) × (Fin (n + 1) → Fin (N + 1))
  xs := Prod.fst
  kernel key s delta := kernel key s.1 s.2 delta.at
  init x := (x, fun _ => 0)

/-- The trajectory and the indices returned by a kernel. -/
def outOf (P : m (KOut (Vec d) N n)) : m ((Fin (n + 1) → Vec d) × (Fin (n + 1) → Fin (N + 1))) := do
  let r ← P
  pure (r.xs, r.Bs)

/-- `get_csmc_kernel`: `/repo/experiments/lgssm_scaling/kernels.py:125-155`. -/
noncomputable def lg_get_csmc_kernel (sigma : ℝ) (style : String) (resampling : Resampling m N)
    (ancestor_move : AncestorMove m N) (backward : Bool) : Except String (Traj (n + 1) d → KernelPair m (n + 1) d) :=
  if style = "bootstrap" then .ok fun ys =>
    csmcPair fun key x b _ => outOf (lg_csmc_kernel ys sigma resampling ancestor_move backward key x b)
  else .error "NotImplementedError"

/-- `get_tp_csmc_kernel(style='smoothing')`: `/repo/experiments/lgssm_scaling/kernels.py:158-199`.  `rt` does not depend
on its first argument.  Modelled for `T ≥ 3`. -/
noncomputable def lg_tp_csmc_smoothing (svd : Mat d d → SvdOut d) (sigma : ℝ) (stop_gradient : Bool)
    (resampling : Resampling m N) (ancestor_move : AncestorMove m N) (backward : Bool) :
    {n : ℕ} → Except String (Traj (n + 1) d → KernelPair m (n + 1) d)
  | _ + 2 => .ok fun ys => csmcPair fun key x b delta =>
    atps_kernel svd (lgGauss ys sigma stop_gradient) (fun x' x y => jaxGrad (fun _ => lg_log_potential x y) x') key x b
      delta delta resampling ancestor_move backward
  | _ => .error "not modelled"

/-- `get_tp_csmc_kernel`: `/repo/experiments/lgssm_scaling/kernels.py:158-199`. -/
noncomputable def lg_get_tp_csmc_kernel (svd : Mat d d → SvdOut d) (sigma : ℝ) (style : String) (stop_gradient : Bool)
    (resampling : Resampling m N) (ancestor_move : AncestorMove m N) (backward : Bool) :
    Except String (Traj (n + 1) d → KernelPair m (n + 1) d) :=
  if style = "marginal" then .ok fun ys => csmcPair fun key x b delta =>
    outOf (lg_tp_csmc_marginal svd ys sigma stop_gradient resampling ancestor_move backward key x b delta)
  else if style = "filtering" then .ok fun ys => csmcPair fun key x b delta =>
    outOf (lg_tp_csmc_filtering svd ys sigma stop_gradient resampling ancestor_move backward key x b delta)
  else if style = "smoothing" then lg_tp_csmc_smoothing svd sigma stop_gradient resampling ancestor_move backward
  else if style = "twisted" then .ok fun ys => csmcPair fun key x b delta =>
    outOf (lg_tp_csmc_twisted ys sigma stop_gradient resampling ancestor_move backward key x b delta)
  else .error "NotImplementedError"

/-- `get_mala_csmc_kernel(style='smoothing')`: `/repo/experiments/lgssm_scaling/kernels.py:202-226`.  Modelled for
`T ≥ 3`. -/
noncomputable def lg_mala_csmc_smoothing (sigma : ℝ)
    (resampling : Resampling m N) (ancestor_move : AncestorMove m N) (backward : Bool) :
    {n : ℕ} → Except String (Traj (n + 1) d → KernelPair m (n + 1) d)
  | _ + 2 => .ok fun ys => csmcPair fun key x b delta =>
    outOf (als_kernel key x b (lgGamma_0 ys sigma) (jaxGrad (lgGamma_0 ys sigma)) (lgGamma_t sigma)
      (fun x' x y => jaxGrad (fun x' => lgGamma_t sigma x' x y) x') (fun x' x y => jaxGrad (fun x => lgGamma_t sigma x' x y) x)
      (tailA ys) delta delta resampling ancestor_move backward)
  | _ => .error "not modelled"

/-- `get_mala_csmc_kernel`: `/repo/experiments/lgssm_scaling/kernels.py:202-226`. -/
noncomputable def lg_get_mala_csmc_kernel (sigma : ℝ) (style : String) (resampling : Resampling m N)
    (ancestor_move : AncestorMove m N) (backward : Bool) : Except String (Traj (n + 1) d → KernelPair m (n + 1) d) :=
  if style = "filtering" then .ok fun ys => csmcPair fun key x b delta =>
    outOf (lg_mala_csmc_filtering ys sigma resampling ancestor_move backward key x b delta)
  else if style = "smoothing" then lg_mala_csmc_smoothing sigma resampling ancestor_move backward
  else if style = "marginal" then .ok fun ys => csmcPair fun key x b delta =>
    outOf (lg_mala_csmc_marginal ys sigma resampling ancestor_move backward key x b delta)
  else .error "NotImplementedError"

/-- `get_rw_csmc_kernel`: `/repo/experiments/lgssm_scaling/kernels.py:229-247`; it ignores the style. -/
noncomputable def lg_get_rw_csmc_kernel (sigma : ℝ) (resampling : Resampling m N)
    (ancestor_move : AncestorMove m N) (backward : Bool) : Except String (Traj (n + 1) d → KernelPair m (n + 1) d) :=
  .ok fun ys => csmcPair fun key x b delta =>
    outOf (lg_rw_csmc (fun _ => true) ys sigma resampling ancestor_move backward key x b delta)

/-- `get_tp_kernel`: `/repo/experiments/lgssm_scaling/kernels.py:84-102`; it ignores the style, the resampling, the last
step and `backward`. -/
noncomputable def lg_get_tp_kernel (sigma : ℝ) (N : ℕ) : Except String (Traj (n + 1) d → KernelPair m (n + 1) d) :=
  .ok fun ys => {
    S := VGState (n + 1) d
    xs := fun s => s.1
    kernel := fun key s delta => do
      let r ← lg_tp_kernel ys sigma N key s delta.num
      pure r.1
    init := tp_init (fun xs => lg_log_likelihood xs ys) (jaxGrad2 fun xs => lg_log_likelihood xs ys) }

/-- `get_mala_kernel`: `/repo/experiments/lgssm_scaling/kernels.py:105-122`. -/
noncomputable def lg_get_mala_kernel (sigma : ℝ) (N : ℕ) (style : String) (stop_gradient : Bool) :
    Except String (Traj (n + 1) d → KernelPair m (n + 1) d) :=
  let pair := fun auxiliary (ys : Traj (n + 1) d) => ({
    S := VGState (n + 1) d
    xs := fun s => s.1
    kernel := fun key s delta => do
      let r ← lg_mala_kernel ys sigma N auxiliary stop_gradient key s delta.num
      pure r.1
    init := tp_init (fun xs => lg_log_pdf xs ys sigma)
      (fun xs => if stop_gradient then 0 else jaxGrad2 (fun xs => lg_log_pdf xs ys sigma) xs) } : KernelPair m (n + 1) d)
  if style = "marginal" then .ok (pair false)
  else if style = "auxiliary" then .ok (pair true)
  else .error "NotImplementedError"

/-- `get_imh_kernel`: `/repo/experiments/lgssm_scaling/kernels.py:250-272`. -/
noncomputable def lg_get_imh_kernel (sigma : ℝ) (N : ℕ) : Except String (Traj (n + 1) d → KernelPair m (n + 1) d) :=
  .ok fun ys => {
    S := Traj (n + 1) d × ℝ
    xs := Prod.fst
    kernel := fun key s _ => do
      let r ← lg_imh_kernel ys sigma N key s
      pure r.1
    init := imh_init fun xs => lg_log_likelihood xs ys }

/-- `kernel_type.kernel_maker(ys, SIGMA, N=…, resampling_func=…, backward=…, ancestor_move_func=…, style=…)`:
`/repo/experiments/lgssm_scaling/kernels.py:35-56`, `/repo/experiments/lgssm_scaling/experiment.py:115-119`. -/
noncomputable def LgType.kernel_maker (svd : Mat d d → SvdOut d) (k : LgType) (sigma : ℝ) (style : String)
    (resampling : Resampling m N) (ancestor_move : AncestorMove m N) (backward : Bool) :
    Except String (Traj (n + 1) d → KernelPair m (n + 1) d) :=
  match k with
  | .TP => lg_get_tp_kernel sigma N
  | .CSMC => lg_get_csmc_kernel sigma style resampling ancestor_move backward
  | .TP_CSMC => lg_get_tp_csmc_kernel svd sigma style false resampling ancestor_move backward
  | .MALA_CSMC => lg_get_mala_csmc_kernel sigma style resampling ancestor_move backward
  | .ADAPTED_CSMC => lg_get_tp_csmc_kernel svd sigma style true resampling ancestor_move backward
  | .RW_CSMC => lg_get_rw_csmc_kernel sigma resampling ancestor_move backward
  | .MALA => lg_get_mala_kernel sigma N style false
  | .RW => lg_get_mala_kernel sigma N style true
  | .IMH => lg_get_imh_kernel sigma N

/-- `esjd`: `/repo/experiments/lgssm_scaling/experiment.py:142-145`. -/
def lg_esjd {T : ℕ} (K : KernelPair m T d) (DELTA : StepSize T) (k : Key) (state : K.S) : m (Fin T → ℝ) := do
  let xs := K.xs state
  let next ← K.kernel k state DELTA
  let next_xs := K.xs next
  pure fun t => ∑ j, (xs t j - next_xs t j) ^ 2

/-- `one_experiment` after the data have been drawn: `/repo/experiments/lgssm_scaling/experiment.py:115-150`. -/
noncomputable def lg_measure (init_key sample_key : Key) (ys : Traj (n + 1) d) (sigma : ℝ) (K : KernelPair m (n + 1) d)
    (DELTA : StepSize (n + 1)) (M : ℕ) : m (Fin (n + 1) → ℝ) := do
  let init_xs ← lg_init init_key ys sigma M
  let init_states := fun i => K.init (init_xs i)
  let sample_keys := splitKey sample_key M
  let esjd_vals ← vmapM (fun p : Key × K.S => lg_esjd K DELTA p.1 p.2) (fun i => (sample_keys i, init_states i))
  pure fun t => (∑ i, esjd_vals i t) / M

/-- `one_experiment`: `/repo/experiments/lgssm_scaling/experiment.py:109-150`. -/
noncomputable def lg_one_experiment (key : Key) (sigma : ℝ) (make : Traj (n + 1) d → KernelPair m (n + 1) d)
    (DELTA : StepSize (n + 1)) (M : ℕ) : m (Fin (n + 1) → ℝ) := do
  let keys := splitKey key 3
  let data_key := keys 0
  let init_key := keys 1
  let sample_key := keys 2
  let data ← lg_get_data data_key sigma d (n + 1)
  let ys := data.2
  lg_measure init_key sample_key ys sigma (make ys) DELTA M

/-- The command line (`/repo/experiments/lgssm_scaling/experiment.py:22-58`); `T = n + 1`. -/
structure LgArgs where
  D : ℕ
  K : ℕ
  M : ℕ
  log_var : ℝ
  delta : ℝ
  delta_scale : ℝ
  delta_arg : String
  kernel : ℕ
  style : String
  backward : Bool
  resampling : String
  last_step : String
  N : ℕ

/-- The script: the array `esjd_all`, or the error that stops it (for `K ≥ 1`; the style is checked inside
`one_experiment`).
`/repo/experiments/lgssm_scaling/experiment.py:58-162`. -/
noncomputable def lg_script (svd : ∀ d, Mat d d → SvdOut d) (seed : Key) (n : ℕ) (args : LgArgs) :
    Except String (m (Fin args.K → Fin (n + 1) → ℝ)) := do
  let kernel_type ← LgType.ofValue args.kernel
  let DELTA := lg_delta args.delta_arg args.delta args.delta_scale args.D (n + 1)
  let resampling_fn ← sel_resampling (m := m) (N := args.N) args.resampling
  let last_step_fn ← sel_last_step (m := m) (N := args.N) args.last_step
  let DELTA := kernel_type.shape_delta DELTA (n + 1)
  let SIGMA := lg_sigma args.log_var
  match kernel_type.kernel_maker (n := n) (svd args.D) SIGMA args.style resampling_fn last_step_fn args.backward with
  | .error e => .error e
  | .ok make =>
    let EXPERIMENT_KEYS := splitKey seed args.K
    .ok (vmapM (fun key => lg_one_experiment key SIGMA make DELTA args.M) EXPERIMENT_KEYS)

end Verif.Model
