import Verif.Model.Kalman
import Verif.Model.Common

/-!
# Multi-try kernels on whole trajectories: `gradient_csmc/mala.py`, `gradient_csmc/imh.py`, `gradient_csmc/tp.py`

`jax.value_and_grad(log_pdf)` is a parameter of the model: a function `log_pdf` and a function `grad`.
A trajectory of shape `(T, d)` is `Fin T → Vec d`.
-/

namespace Verif.Model
open Verif Matrix

variable {m : Type → Type} [RandM m] {T d N n : ℕ}

/-- A trajectory. -/
abbrev Traj (T d : ℕ) := Fin T → Vec d

/-- `jnp.sum(a ** 2, (0, 1))` of an array of shape `(T, d)`. -/
def sumSq2 (a : Traj T d) : ℝ := ∑ t, ∑ j, a t j ^ 2

/-- `jnp.dot` of two arrays of shape `(T, d)` reshaped to `(T * d,)`. -/
def dot2 (a b : Traj T d) : ℝ := ∑ t, ∑ j, a t j * b t j

/-- `weights = exp(lw - max(lw)); weights /= sum(weights)`: `/repo/gradient_csmc/mala.py:81-82`, `imh.py:77-78`,
`tp.py:94-95`. -/
noncomputable def expNormalize {N : ℕ} (lw : Fin (N + 1) → ℝ) : Fin (N + 1) → ℝ :=
  let weights : Fin (N + 1) → ℝ := fun i => Real.exp (lw i - maxA lw)
  let s := ∑ i, weights i
  fun i => weights i / s

/-- `state` of `mala.kernel` and of the kernel of `tp.py`: trajectory, log-density and gradient. -/
abbrev VGState (T d : ℕ) := Traj T d × ℝ × Traj T d

/-- `init`: `/repo/gradient_csmc/tp.py:107-124` (also used by `mala.py`). -/
def tp_init (log_pdf : Traj T d → ℝ) (grad : Traj T d → Traj T d) (x : Traj T d) : VGState T d :=
  (x, log_pdf x, grad x)

/-- `us = x_star + 0.5 * delta * grad_x_star + std_dev * eps_aux`: `/repo/gradient_csmc/mala.py:57`, `tp.py:79`. -/
noncomputable def auxTraj (s : VGState T d) (delta std_dev : ℝ) (eps_aux : Traj T d) : Traj T d :=
  fun t j => s.1 t j + 0.5 * delta * s.2.2 t j + std_dev * eps_aux t j

/-- `get_log_H` of `mala.py` at one sample: `/repo/gradient_csmc/mala.py:92-109` (finite values). -/
noncomputable def mala_log_H (xs : Fin (N + 1) → Traj T d) (c_inv e : ℝ) (x phi : Traj T d) : ℝ :=
  let x_bar : Traj T d := fun t j => (∑ i, xs i t j) / ((N : ℝ) + 1)
  let G := 1 / (e + N * e)
  let B_x_phi : Traj T d := fun t j => x t j + phi t j
  let term_1 := -(c_inv + G) * dot2 x x
  let term_2 := N * (c_inv - N * G) * dot2 B_x_phi B_x_phi
  let term_3 := 2 * ((N : ℝ) + 1) * dot2 x_bar (fun t j => G * x t j - (c_inv - N * G) * B_x_phi t j)
  let term_4 := 2 * (c_inv - N * G) * dot2 x B_x_phi
  (-0.5 : ℝ) * (term_1 + term_2 + term_3 + term_4)

/-- `log_weights` of `mala.kernel`: `/repo/gradient_csmc/mala.py:66-79`. -/
noncomputable def malaLogWeights (auxiliary : Bool) (delta std_dev : ℝ) (us : Traj T d)
    (samples : Fin (N + 1) → Traj T d) (vals : Fin (N + 1) → ℝ) (grads : Fin (N + 1) → Traj T d) :
    Fin (N + 1) → ℝ :=
  if auxiliary then fun i =>
    let correction_term :=
      -0.5 * sumSq2 (fun t j => us t j - samples i t j - 0.5 * delta * grads i t j) / std_dev ^ 2
    let log_weights := vals i + correction_term
    let proposal_log_pdf := -0.5 * sumSq2 (fun t j => us t j - samples i t j) / std_dev ^ 2
    log_weights - proposal_log_pdf
  else fun i =>
    vals i + mala_log_H samples (2 / delta) (0.5 * delta) (samples i) (fun t j => 0.5 * delta * grads i t j)

/-- The last index is drawn by `force_move(key_choice, weights, 0)` and the corresponding entries are returned:
`/repo/gradient_csmc/mala.py:84-89`, `tp.py:97-102`. -/
noncomputable def selectVG (key_choice : Key) (lw : Fin (N + 1) → ℝ) (samples : Fin (N + 1) → Traj T d)
    (vals : Fin (N + 1) → ℝ) (grads : Fin (N + 1) → Traj T d) : m (VGState T d × Bool) := do
  let weights := expNormalize lw
  let r ← force_move key_choice weights 0
  let idx := r.1
  pure ((samples idx, vals idx, grads idx), decide (idx ≠ 0))

/-- `mala.kernel`: `/repo/gradient_csmc/mala.py:16-89`. -/
noncomputable def mala_kernel (key : Key) (state : VGState T d) (delta : ℝ) (log_pdf : Traj T d → ℝ)
    (grad : Traj T d → Traj T d) (N : ℕ) (auxiliary : Bool) : m (VGState T d × Bool) := do
  let keys := splitKey key 3
  let key_sample := keys 0
  let key_choice := keys 1
  let key_aux := keys 2
  let std_dev := Real.sqrt (0.5 * delta)
  let eps_aux ← normal2 key_aux T d
  let us := auxTraj state delta std_dev eps_aux
  let eps ← normal3 key_sample N T d
  let samples : Fin N → Traj T d := fun i t j => us t j + std_dev * eps i t j
  let vals := fun i => log_pdf (samples i)
  let grads := fun i => grad (samples i)
  let samples := insert0 state.1 samples
  let vals := insert0 state.2.1 vals
  let grads := insert0 state.2.2 grads
  selectVG key_choice (malaLogWeights auxiliary delta std_dev us samples vals grads) samples vals grads

/-- `log_weights` of the kernel of `tp.py`: `/repo/gradient_csmc/tp.py:90-93`. -/
noncomputable def tpLogWeights (delta : ℝ) (us : Traj T d) (samples : Fin (N + 1) → Traj T d)
    (vals : Fin (N + 1) → ℝ) (grads : Fin (N + 1) → Traj T d) : Fin (N + 1) → ℝ := fun i =>
  let temp : Traj T d := fun t j => us t j - samples i t j - 0.25 * delta * grads i t j
  let correction_term := dot2 temp (grads i)
  vals i + correction_term

/-- Gaussian prior dynamics: arguments `m0, P0, Fs, Qs, bs` of `get_kernel` in `tp.py` and `imh.py`. -/
structure Dyn (n d : ℕ) where
  m0 : Vec d
  P0 : Mat d d
  Fs : Fin n → Mat d d
  Qs : Fin n → Mat d d
  bs : Fin n → Vec d

/-- The kernel of `tp.get_kernel`: `/repo/gradient_csmc/tp.py:14-104`. -/
noncomputable def tp_kernel (key : Key) (state : VGState (n + 1) d) (delta : ℝ) (D : Dyn n d)
    (log_pdf : Traj (n + 1) d → ℝ) (grad : Traj (n + 1) d → Traj (n + 1) d) (N : ℕ) :
    m (VGState (n + 1) d × Bool) := do
  let keys := splitKey key 3
  let key_sample := keys 0
  let key_choice := keys 1
  let key_aux := keys 2
  let std_dev := Real.sqrt (0.5 * delta)
  let eps_aux ← normal2 key_aux (n + 1) d
  let us := auxTraj state delta std_dev eps_aux
  let Hs : Fin (n + 1) → Mat d d := fun _ => 1
  let Rs : Fin (n + 1) → Mat d d := fun _ => (0.5 * delta) • (1 : Mat d d)
  let cs : Fin (n + 1) → Vec d := fun _ => 0
  let f := filtering0 us D.m0 D.P0 D.Fs D.Qs D.bs Hs Rs cs
  let samples ← kalman_sampling key_sample f.1 f.2.1 D.Fs D.Qs D.bs N
  let vals := fun i => log_pdf (samples i)
  let grads := fun i => grad (samples i)
  let samples := insert0 state.1 samples
  let vals := insert0 state.2.1 vals
  let grads := insert0 state.2.2 grads
  selectVG key_choice (tpLogWeights delta us samples vals grads) samples vals grads

/-- `init` of `imh.py`: `/repo/gradient_csmc/imh.py:89-106`. -/
def imh_init (log_pdf : Traj T d → ℝ) (x : Traj T d) : Traj T d × ℝ := (x, log_pdf x)

/-- The kernel of `imh.get_kernel`: `/repo/gradient_csmc/imh.py:15-86`. -/
noncomputable def imh_kernel (key : Key) (state : Traj (n + 1) d × ℝ) (D : Dyn n d)
    (log_pdf : Traj (n + 1) d → ℝ) (N : ℕ) : m ((Traj (n + 1) d × ℝ) × Bool) := do
  let keys := splitKey key 3
  let key_sample := keys 0
  let key_choice := keys 1
  let samples ← prior_sampling key_sample D.m0 D.P0 D.Fs D.Qs D.bs N
  let log_weights := fun i => log_pdf (samples i)
  let samples := insert0 state.1 samples
  let log_weights := insert0 state.2 log_weights
  let weights := expNormalize log_weights
  let r ← force_move key_choice weights 0
  let idx := r.1
  pure ((samples idx, log_weights idx), decide (idx ≠ 0))

/-- `prior_logpdf`: `/repo/gradient_csmc/imh.py:109-114`. -/
noncomputable def prior_logpdf (xs : Traj (n + 1) d) (m0 : Vec d) (inv_chol_P0 : Mat d d) (Fs : Fin n → Mat d d)
    (inv_chol_Qs : Fin n → Mat d d) (bs : Fin n → Vec d) : ℝ :=
  let out := mvn_logpdf (xs 0) m0 0 (some inv_chol_P0) false
  let pred_xs : Fin n → Vec d := fun t => Fs t *ᵥ initA xs t + bs t
  out + ∑ t, mvn_logpdf (tailA xs t) (pred_xs t) 0 (some (inv_chol_Qs t)) false

end Verif.Model
