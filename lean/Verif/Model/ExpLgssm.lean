import Mathlib.Analysis.Calculus.FDeriv.Basic
import Verif.Model.MultiTry
import Verif.Model.TpCsmc
import Verif.Model.TAtpCsmcF

/-!
# `experiments/lgssm_scaling/model.py` and `experiments/lgssm_scaling/kernels.py`

`T = n + 1` time steps, states and observations in `ℝ^d`.
-/

namespace Verif.Model
open Verif Matrix

variable {m : Type → Type} [RandM m] {N n T d : ℕ}

/-- `jax.grad(f)(x)`: the vector of partial derivatives.  Automatic differentiation returns it wherever the function
is differentiable, which the functions of the experiments are everywhere. -/
noncomputable def jaxGrad (f : Vec d → ℝ) (x : Vec d) : Vec d := fun j => fderiv ℝ f x (Pi.single j 1)

/-- `jax.grad(f)(xs)` for a function of a trajectory. -/
noncomputable def jaxGrad2 (f : Traj T d → ℝ) (xs : Traj T d) : Traj T d :=
  fun t j => fderiv ℝ f xs (Pi.single t (Pi.single j 1))

/-- The gradient of a function, or that of the function composed with `jax.lax.stop_gradient`, which is zero. -/
noncomputable def gradOrStop (stop_gradient : Bool) (f : Vec d → ℝ) (x : Vec d) : Vec d :=
  if stop_gradient then 0 else jaxGrad f x

/-- `body` of `get_data`: `/repo/experiments/lgssm_scaling/model.py:15-19`. -/
def lgDataBody (sigma : ℝ) (x_k : Vec d) (inps : Vec d × Vec d) : Vec d × (Vec d × Vec d) :=
  let eps_x := inps.1
  let eps_y := inps.2
  let y_k := x_k + eps_y
  let x_kp1 := x_k + sigma • eps_x
  (x_kp1, (x_k, y_k))

/-- `get_data`: `/repo/experiments/lgssm_scaling/model.py:8-22`. -/
def lg_get_data (key : Key) (sigma : ℝ) (d T : ℕ) : m ((Fin T → Vec d) × (Fin T → Vec d)) := do
  let keys := splitKey key 2
  let init_key := keys 0
  let e ← normal1 init_key d
  let x0 : Vec d := sigma • e
  let eps ← normal3 init_key 2 T d
  let r := scan (lgDataBody sigma) x0 (fun t => (eps 0 t, eps 1 t))
  pure (fun t => (r.2 t).1, fun t => (r.2 t).2)

/-- `jnp.sum(norm.logpdf(x, loc, scale))` over the components. -/
noncomputable def sumNorm (x loc : Vec d) (scale : ℝ) : ℝ := ∑ j, norm_logpdf (x j) (loc j) scale true

/-- `log_potential`: `/repo/experiments/lgssm_scaling/model.py:25-28`. -/
noncomputable def lg_log_potential (x y : Vec d) : ℝ := sumNorm y x 1

/-- `log_likelihood`: `/repo/experiments/lgssm_scaling/model.py:31-32`. -/
noncomputable def lg_log_likelihood (x y : Traj T d) : ℝ := ∑ t, lg_log_potential (x t) (y t)

/-- `log_pdf`: `/repo/experiments/lgssm_scaling/model.py:35-42`. -/
noncomputable def lg_log_pdf (zs ys : Traj (n + 1) d) (sigma : ℝ) : ℝ :=
  let out := sumNorm (zs 0) 0 sigma
  let out := out + ∑ t, sumNorm (tailA zs t) (initA zs t) sigma
  out + ∑ t, sumNorm (zs t) (ys t) 1

/-- Dynamics of `get_tp_kernel` and `get_imh_kernel`: `/repo/experiments/lgssm_scaling/kernels.py:87-94, 257-264`. -/
noncomputable def lgDyn (sigma : ℝ) (n d : ℕ) : Dyn n d where
  m0 := 0
  P0 := sigma ^ 2 • 1
  Fs _ := 1
  Qs _ := sigma ^ 2 • 1
  bs _ := 0

/-- `get_tp_kernel`: `/repo/experiments/lgssm_scaling/kernels.py:84-102`. -/
noncomputable def lg_tp_kernel (ys : Traj (n + 1) d) (sigma : ℝ) (N : ℕ) (key : Key) (state : VGState (n + 1) d)
    (delta : ℝ) : m (VGState (n + 1) d × Bool) :=
  let log_pdf_ys := fun xs => lg_log_likelihood xs ys
  tp_kernel key state delta (lgDyn sigma n d) log_pdf_ys (jaxGrad2 log_pdf_ys) N

/-- `get_mala_kernel`: `/repo/experiments/lgssm_scaling/kernels.py:105-122`; `style` is `"marginal"` or `"auxiliary"`. -/
noncomputable def lg_mala_kernel (ys : Traj (n + 1) d) (sigma : ℝ) (N : ℕ) (auxiliary stop_gradient : Bool) (key : Key)
    (state : VGState (n + 1) d) (delta : ℝ) : m (VGState (n + 1) d × Bool) :=
  let full_log_pdf := fun xs => lg_log_pdf xs ys sigma
  mala_kernel key state delta full_log_pdf (fun xs => if stop_gradient then 0 else jaxGrad2 full_log_pdf xs) N auxiliary

/-- `M0_logpdf`: `/repo/experiments/lgssm_scaling/kernels.py:137-138`. -/
noncomputable def lgM0_logpdf (sigma : ℝ) (x : Vec d) : ℝ := sumNorm x 0 sigma

/-- `Mt_logpdf`: `/repo/experiments/lgssm_scaling/kernels.py:139-140`. -/
noncomputable def lgMt_logpdf (sigma : ℝ) (x_t_m_1 x_t : Vec d) : ℝ := sumNorm x_t x_t_m_1 sigma

/-- `M0`, `Gamma_0`, `Mt`, `Gamma_t` of `get_csmc_kernel`: `/repo/experiments/lgssm_scaling/kernels.py:125-149`. -/
noncomputable def lgFK (ys : Traj (n + 1) d) (sigma : ℝ) : FK m (Vec d) (Vec d) (Vec d) N where
  M0_rvs key := do
    let eps ← normal2 key (N + 1) d
    pure (fun i => sigma • eps i)
  M0_logpdf x i := lgM0_logpdf sigma (x i)
  Gamma0 x := lg_log_potential x (ys 0) + lgM0_logpdf sigma x
  Mt_rvs key x_t_m_1 _ := do
    let eps ← normal2 key (N + 1) d
    pure (fun i => x_t_m_1 i + sigma • eps i)
  Mt_logpdf x_t_m_1 x_t _ i := lgMt_logpdf sigma (x_t_m_1 i) (x_t i)
  Gammat x_t_m_1 x_t y := lg_log_potential x_t y + lgMt_logpdf sigma x_t_m_1 x_t

/-- `get_csmc_kernel`: `/repo/experiments/lgssm_scaling/kernels.py:125-155`. -/
noncomputable def lg_csmc_kernel (ys : Traj (n + 1) d) (sigma : ℝ) (resampling : Resampling m N)
    (ancestor_move : AncestorMove m N) (backward : Bool) (key : Key) (x : Fin (n + 1) → Vec d)
    (b : Fin (n + 1) → Fin (N + 1)) : m (KOut (Vec d) N n) :=
  csmc_kernel key x b (lgFK ys sigma) (tailA ys) (tailA ys) resampling ancestor_move backward true

/-- The model given to `tp_csmc.get_kernel` and `atp_csmc_f.get_kernel` by `get_tp_csmc_kernel`:
`/repo/experiments/lgssm_scaling/kernels.py:158-184`. -/
noncomputable def lgGauss (ys : Traj (n + 1) d) (sigma : ℝ) (stop_gradient : Bool) : GaussModel Unit (Vec d) n d where
  mu0 := 0
  P0 := sigma ^ 2 • 1
  r0 x := lg_log_potential x (ys 0)
  r0_grad := gradOrStop stop_gradient (fun x => lg_log_potential x (ys 0))
  mu x _ := x
  mu_params _ := ()
  Qs _ := sigma ^ 2 • 1
  rt _ x y := lg_log_potential x y
  rt_grad _ x y := gradOrStop stop_gradient (fun x => lg_log_potential x y) x
  rt_params := tailA ys

/-- The model given to `t_atp_csmc_f.get_kernel` by `get_tp_csmc_kernel`:
`/repo/experiments/lgssm_scaling/kernels.py:158-191`. -/
noncomputable def lgLin (ys : Traj (n + 1) d) (sigma : ℝ) (stop_gradient : Bool) : LinModel (Vec d) n d where
  mu0 := 0
  P0 := sigma ^ 2 • 1
  r0 x := lg_log_potential x (ys 0)
  r0_grad := gradOrStop stop_gradient (fun x => lg_log_potential x (ys 0))
  Fs _ := 1
  bs _ := 0
  Qs _ := sigma ^ 2 • 1
  rt _ x y := lg_log_potential x y
  rt_grad _ x y := gradOrStop stop_gradient (fun x => lg_log_potential x y) x
  rt_params := tailA ys

/-- `get_tp_csmc_kernel(style='marginal')`: `/repo/experiments/lgssm_scaling/kernels.py:158-199`. -/
noncomputable def lg_tp_csmc_marginal (svd : Mat d d → SvdOut d) (ys : Traj (n + 1) d) (sigma : ℝ)
    (stop_gradient : Bool) (resampling : Resampling m N) (ancestor_move : AncestorMove m N) (backward : Bool) (key : Key)
    (x : Fin (n + 1) → Vec d) (b : Fin (n + 1) → Fin (N + 1)) (delta : Fin (n + 1) → ℝ) : m (KOut (Vec d) N n) :=
  tp_csmc_kernel svd (lgGauss ys sigma stop_gradient) key x b delta delta resampling ancestor_move backward

/-- `get_tp_csmc_kernel(style='filtering')`: `/repo/experiments/lgssm_scaling/kernels.py:158-199`. -/
noncomputable def lg_tp_csmc_filtering (svd : Mat d d → SvdOut d) (ys : Traj (n + 1) d) (sigma : ℝ)
    (stop_gradient : Bool) (resampling : Resampling m N) (ancestor_move : AncestorMove m N) (backward : Bool) (key : Key)
    (x : Fin (n + 1) → Vec d) (b : Fin (n + 1) → Fin (N + 1)) (delta : Fin (n + 1) → ℝ) : m (KOut (Vec d) N n) :=
  atp_kernel svd (lgGauss ys sigma stop_gradient) key x b delta delta resampling ancestor_move backward

/-- `get_tp_csmc_kernel(style='twisted')`: `/repo/experiments/lgssm_scaling/kernels.py:158-199`. -/
noncomputable def lg_tp_csmc_twisted (ys : Traj (n + 1) d) (sigma : ℝ)
    (stop_gradient : Bool) (resampling : Resampling m N) (ancestor_move : AncestorMove m N) (backward : Bool) (key : Key)
    (x : Fin (n + 1) → Vec d) (b : Fin (n + 1) → Fin (N + 1)) (delta : Fin (n + 1) → ℝ) : m (KOut (Vec d) N n) :=
  t_atp_kernel (lgLin ys sigma stop_gradient) key x b delta delta resampling ancestor_move backward

/-- `Gamma_0` of `get_mala_csmc_kernel` and `get_rw_csmc_kernel`: `/repo/experiments/lgssm_scaling/kernels.py:203-205,
232-234`. -/
noncomputable def lgGamma_0 (ys : Traj (n + 1) d) (sigma : ℝ) (x : Vec d) : ℝ :=
  lg_log_potential x (ys 0) + sumNorm x 0 sigma

/-- `Gamma_t` of `get_mala_csmc_kernel` and `get_rw_csmc_kernel`: `/repo/experiments/lgssm_scaling/kernels.py:207-209,
236-238`. -/
noncomputable def lgGamma_t (sigma : ℝ) (x_t_m_1 x_t y : Vec d) : ℝ :=
  lg_log_potential x_t y + sumNorm x_t x_t_m_1 sigma

/-- `get_mala_csmc_kernel(style='filtering')`: `/repo/experiments/lgssm_scaling/kernels.py:202-226`. -/
noncomputable def lg_mala_csmc_filtering (ys : Traj (n + 1) d) (sigma : ℝ) (resampling : Resampling m N)
    (ancestor_move : AncestorMove m N) (backward : Bool) (key : Key)
    (x : Fin (n + 1) → Vec d) (b : Fin (n + 1) → Fin (N + 1)) (delta : Fin (n + 1) → ℝ) : m (KOut (Vec d) N n) :=
  al_kernel key x b (lgGamma_0 ys sigma) (jaxGrad (lgGamma_0 ys sigma)) (lgGamma_t sigma)
    (fun x' x y => jaxGrad (fun x => lgGamma_t sigma x' x y) x) (tailA ys) delta delta resampling ancestor_move backward

/-- `get_mala_csmc_kernel(style='marginal')`: `/repo/experiments/lgssm_scaling/kernels.py:202-226`. -/
noncomputable def lg_mala_csmc_marginal (ys : Traj (n + 1) d) (sigma : ℝ) (resampling : Resampling m N)
    (ancestor_move : AncestorMove m N) (backward : Bool) (key : Key)
    (x : Fin (n + 1) → Vec d) (b : Fin (n + 1) → Fin (N + 1)) (delta : Fin (n + 1) → ℝ) : m (KOut (Vec d) N n) :=
  l_kernel key x b (lgGamma_0 ys sigma) (jaxGrad (lgGamma_0 ys sigma)) (lgGamma_t sigma)
    (fun x' x y => jaxGrad (fun x => lgGamma_t sigma x' x y) x) (tailA ys) delta delta resampling ancestor_move backward

/-- `get_rw_csmc_kernel`: `/repo/experiments/lgssm_scaling/kernels.py:229-247`. -/
noncomputable def lg_rw_csmc (isfinite : Vec d → Bool) (ys : Traj (n + 1) d) (sigma : ℝ) (resampling : Resampling m N)
    (ancestor_move : AncestorMove m N) (backward : Bool) (key : Key)
    (x : Fin (n + 1) → Vec d) (b : Fin (n + 1) → Fin (N + 1)) (delta : Fin (n + 1) → ℝ) : m (KOut (Vec d) N n) :=
  rw_kernel isfinite key x b (lgGamma_0 ys sigma) (lgGamma_t sigma) (tailA ys) delta resampling ancestor_move backward

/-- `get_imh_kernel`: `/repo/experiments/lgssm_scaling/kernels.py:250-272`. -/
noncomputable def lg_imh_kernel (ys : Traj (n + 1) d) (sigma : ℝ) (N : ℕ) (key : Key) (state : Traj (n + 1) d × ℝ) :
    m ((Traj (n + 1) d × ℝ) × Bool) :=
  imh_kernel key state (lgDyn sigma n d) (fun xs => lg_log_likelihood xs ys) N

/-- The initial trajectories of `one_experiment`: `/repo/experiments/lgssm_scaling/experiment.py:126-137`. -/
noncomputable def lg_init (init_key : Key) (ys : Traj (n + 1) d) (sigma : ℝ) (M : ℕ) : m (Fin M → Traj (n + 1) d) :=
  let D := lgDyn sigma n d
  let f := filtering0 ys D.m0 D.P0 D.Fs D.Qs D.bs (fun _ => 1) (fun _ => 1) (fun _ => 0)
  kalman_sampling init_key f.1 f.2.1 D.Fs D.Qs D.bs M

end Verif.Model
