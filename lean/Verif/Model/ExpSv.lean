import Verif.Model.ExpLgssm

/-!
# `experiments/stochastic_volatility/model.py` and `experiments/stochastic_volatility/kernels.py`
-/

namespace Verif.Model
open Verif Matrix

variable {m : Type → Type} [RandM m] {N n T d : ℕ}

/-- `stationary_covariance`: `/repo/experiments/stochastic_volatility/model.py:48-55`, returns `U, U_star`.  Reshaping to
a column and back does not change the entries. -/
noncomputable def stationary_covariance (phi tau rho : ℝ) (d : ℕ) : Mat d d × Mat d d :=
  let U : Mat d d := fun i j => if i = j then tau else tau * rho
  let U_star : Mat d d := fun i j => U i j / (1 - phi ^ 2)
  (U, U_star)

/-- Output of `get_dynamics`. -/
structure SvDyn (d : ℕ) where
  m0 : Vec d
  P0 : Mat d d
  F : Mat d d
  Q : Mat d d
  b : Vec d

/-- `get_dynamics`: `/repo/experiments/stochastic_volatility/model.py:39-45`. -/
noncomputable def get_dynamics (nu phi tau rho : ℝ) (d : ℕ) : SvDyn d :=
  let F : Mat d d := phi • 1
  let QP := stationary_covariance phi tau rho d
  let mu : Vec d := fun _ => nu * 1
  let b := mu + F *ᵥ mu
  ⟨mu, QP.2, F, QP.1, b⟩

/-- The symmetric matrix with the upper triangle of `S`. -/
def symmUpper (S : Mat d d) : Mat d d := fun i j => if i ≤ j then S i j else S j i

/-- `jax.scipy.linalg.solve(S, eye, assume_a="pos")` for a matrix `S` which need not be symmetric: with the default
`lower=False` only the upper triangle of `S` is read. -/
noncomputable def solvePosEye (S : Mat d d) : Mat d d := (symmUpper S)⁻¹ * 1

/-- `body` of `get_data`: `/repo/experiments/stochastic_volatility/model.py:26-33`. -/
noncomputable def svDataBody (D : SvDyn d) (chol_Q : Mat d d) (x_k : Vec d) (key_k : Key) : m (Vec d × (Vec d × Vec d)) := do
  let keys := splitKey key_k 2
  let state_key := keys 0
  let observation_key := keys 1
  let observation_scale : Vec d := fun j => Real.exp (0.5 * x_k j)
  let e ← normal1 observation_key d
  let y_k : Vec d := fun j => observation_scale j * e j
  let e' ← normal1 state_key d
  let x_kp1 := D.F *ᵥ x_k + D.b + chol_Q *ᵥ e'
  pure (x_kp1, (x_k, y_k))

/-- What `get_data` returns. -/
structure SvData (T d : ℕ) where
  xs : Fin T → Vec d
  ys : Fin T → Vec d
  inv_chol_P0 : Mat d d
  inv_chol_Q : Mat d d

/-- `get_data`: `/repo/experiments/stochastic_volatility/model.py:12-36`. -/
noncomputable def sv_get_data (key : Key) (nu phi tau rho : ℝ) (d T : ℕ) : m (SvData T d) := do
  let D := get_dynamics nu phi tau rho d
  let keys := splitKey key 2
  let init_key := keys 0
  let sampling_key := keys 1
  let chol_P0 := cholesky D.P0
  let chol_Q := cholesky D.Q
  let inv_chol_P0 := solvePosEye chol_P0
  let inv_chol_Q := solvePosEye chol_Q
  let e ← normal1 init_key d
  let x0 := D.m0 + chol_P0 *ᵥ e
  let r ← scanM (svDataBody D chol_Q) x0 (splitKey sampling_key T)
  pure ⟨fun t => (r.2 t).1, fun t => (r.2 t).2, inv_chol_P0, inv_chol_Q⟩

/-- `log_potential`: `/repo/experiments/stochastic_volatility/model.py:58-62` (finite scale: `nansum` drops nothing). -/
noncomputable def sv_log_potential (x y : Vec d) : ℝ :=
  let scale : Vec d := fun j => Real.exp (0.5 * x j)
  ∑ j, norm_logpdf (y j) 0 (scale j) true

/-- `log_likelihood`: `/repo/experiments/stochastic_volatility/model.py:65-66`. -/
noncomputable def sv_log_likelihood (x y : Traj T d) : ℝ := ∑ t, sv_log_potential (x t) (y t)

/-- `log_pdf`: `/repo/experiments/stochastic_volatility/model.py:69-77`.
`einsum('...j,ij,i->...i', zs, F, b)` has entries `(∑ j, zs j * F i j) * b i`. -/
noncomputable def sv_log_pdf (zs ys : Traj (n + 1) d) (m0 : Vec d) (inv_chol_P0 F inv_chol_Q : Mat d d) (b : Vec d) : ℝ :=
  let out := mvn_logpdf (zs 0) m0 0 (some inv_chol_P0) false
  let pred_xs : Fin n → Vec d := fun t i => ∑ j, initA zs t j * F i j * b i
  let out := out + ∑ t, mvn_logpdf (tailA zs t) (pred_xs t) 0 (some inv_chol_Q) false
  out + sv_log_likelihood zs ys

/-- Dynamics of `get_tp_kernel`: `/repo/experiments/stochastic_volatility/kernels.py:58-63`. -/
def svDyn (D : SvDyn d) (n : ℕ) : Dyn n d := ⟨D.m0, D.P0, fun _ => D.F, fun _ => D.Q, fun _ => D.b⟩

/-- `get_tp_kernel`: `/repo/experiments/stochastic_volatility/kernels.py:58-71`. -/
noncomputable def sv_tp_kernel (ys : Traj (n + 1) d) (D : SvDyn d) (N : ℕ) (key : Key) (state : VGState (n + 1) d)
    (delta : ℝ) : m (VGState (n + 1) d × Bool) :=
  let log_pdf_ys := fun xs => sv_log_likelihood xs ys
  tp_kernel key state delta (svDyn D n) log_pdf_ys (jaxGrad2 log_pdf_ys) N

/-- `full_log_pdf` of `get_mala_kernel`: `/repo/experiments/stochastic_volatility/kernels.py:74-81`. -/
noncomputable def svFullLogPdf (ys : Traj (n + 1) d) (D : SvDyn d) (xs : Traj (n + 1) d) : ℝ :=
  sv_log_pdf xs ys D.m0 (invChol D.P0) D.F (invChol D.Q) D.b

/-- `get_mala_kernel`: `/repo/experiments/stochastic_volatility/kernels.py:74-94`. -/
noncomputable def sv_mala_kernel (ys : Traj (n + 1) d) (D : SvDyn d) (N : ℕ) (auxiliary : Bool) (key : Key)
    (state : VGState (n + 1) d) (delta : ℝ) : m (VGState (n + 1) d × Bool) :=
  mala_kernel key state delta (svFullLogPdf ys D) (jaxGrad2 (svFullLogPdf ys D)) N auxiliary

/-- `M0_logpdf`: `/repo/experiments/stochastic_volatility/kernels.py:115`. -/
noncomputable def svM0_logpdf (D : SvDyn d) (x : Vec d) : ℝ := mvn_logpdf x D.m0 0 (some (invChol D.P0)) false

/-- `Mt_logpdf`: `/repo/experiments/stochastic_volatility/kernels.py:116-117`. -/
noncomputable def svMt_logpdf (D : SvDyn d) (x_t_m_1 x_t : Vec d) : ℝ :=
  mvn_logpdf x_t (D.F *ᵥ x_t_m_1 + D.b) 0 (some (invChol D.Q)) false

/-- `M0`, `Gamma_0`, `Mt`, `Gamma_t` of `get_csmc_kernel`: `/repo/experiments/stochastic_volatility/kernels.py:97-126`. -/
noncomputable def svFK (ys : Traj (n + 1) d) (D : SvDyn d) : FK m (Vec d) (Vec d) (Vec d) N where
  M0_rvs key := do
    let eps ← normal2 key (N + 1) d
    pure (fun i => D.m0 + cholesky D.P0 *ᵥ eps i)
  M0_logpdf x i := svM0_logpdf D (x i)
  Gamma0 x := sv_log_potential x (ys 0) + svM0_logpdf D x
  Mt_rvs key x_t_m_1 _ := do
    let eps ← normal2 key (N + 1) d
    pure (fun i => D.F *ᵥ x_t_m_1 i + cholesky D.Q *ᵥ eps i + D.b)
  Mt_logpdf x_t_m_1 x_t _ i := svMt_logpdf D (x_t_m_1 i) (x_t i)
  Gammat x_t_m_1 x_t y := sv_log_potential x_t y + svMt_logpdf D x_t_m_1 x_t

/-- `get_csmc_kernel`: `/repo/experiments/stochastic_volatility/kernels.py:97-141` (`conditional` is passed on). -/
noncomputable def sv_csmc_kernel (ys : Traj (n + 1) d) (D : SvDyn d) (resampling : Resampling m N)
    (ancestor_move : AncestorMove m N) (backward conditional : Bool) (key : Key) (x : Fin (n + 1) → Vec d)
    (b : Fin (n + 1) → Fin (N + 1)) : m (KOut (Vec d) N n) :=
  csmc_kernel key x b (svFK ys D) (tailA ys) (tailA ys) resampling ancestor_move backward conditional

/-- The model given to `tp_csmc.get_kernel` and `atp_csmc_f.get_kernel` by `get_tp_csmc_kernel`:
`/repo/experiments/stochastic_volatility/kernels.py:144-163`. -/
noncomputable def svGauss (ys : Traj (n + 1) d) (D : SvDyn d) (stop_gradient : Bool) : GaussModel Unit (Vec d) n d where
  mu0 := D.m0
  P0 := D.P0
  r0 x := sv_log_potential x (ys 0)
  r0_grad := gradOrStop stop_gradient (fun x => sv_log_potential x (ys 0))
  mu x _ := D.F *ᵥ x + D.b
  mu_params _ := ()
  Qs _ := D.Q
  rt _ x y := sv_log_potential x y
  rt_grad _ x y := gradOrStop stop_gradient (fun x => sv_log_potential x y) x
  rt_params := tailA ys

/-- The model given to `t_atp_csmc_f.get_kernel` by `get_tp_csmc_kernel`:
`/repo/experiments/stochastic_volatility/kernels.py:144-168`. -/
noncomputable def svLin (ys : Traj (n + 1) d) (D : SvDyn d) (stop_gradient : Bool) : LinModel (Vec d) n d where
  mu0 := D.m0
  P0 := D.P0
  r0 x := sv_log_potential x (ys 0)
  r0_grad := gradOrStop stop_gradient (fun x => sv_log_potential x (ys 0))
  Fs _ := D.F
  bs _ := D.b
  Qs _ := D.Q
  rt _ x y := sv_log_potential x y
  rt_grad _ x y := gradOrStop stop_gradient (fun x => sv_log_potential x y) x
  rt_params := tailA ys

/-- `get_tp_csmc_kernel(style='marginal')`: `/repo/experiments/stochastic_volatility/kernels.py:144-190`. -/
noncomputable def sv_tp_csmc_marginal (svd : Mat d d → SvdOut d) (ys : Traj (n + 1) d) (D : SvDyn d)
    (stop_gradient : Bool) (resampling : Resampling m N) (ancestor_move : AncestorMove m N) (backward : Bool) (key : Key)
    (x : Fin (n + 1) → Vec d) (b : Fin (n + 1) → Fin (N + 1)) (delta : Fin (n + 1) → ℝ) : m (KOut (Vec d) N n) :=
  tp_csmc_kernel svd (svGauss ys D stop_gradient) key x b delta delta resampling ancestor_move backward

/-- `get_tp_csmc_kernel(style='filtering')`: `/repo/experiments/stochastic_volatility/kernels.py:144-190`. -/
noncomputable def sv_tp_csmc_filtering (svd : Mat d d → SvdOut d) (ys : Traj (n + 1) d) (D : SvDyn d)
    (stop_gradient : Bool) (resampling : Resampling m N) (ancestor_move : AncestorMove m N) (backward : Bool) (key : Key)
    (x : Fin (n + 1) → Vec d) (b : Fin (n + 1) → Fin (N + 1)) (delta : Fin (n + 1) → ℝ) : m (KOut (Vec d) N n) :=
  atp_kernel svd (svGauss ys D stop_gradient) key x b delta delta resampling ancestor_move backward

/-- `get_tp_csmc_kernel(style='twisted')`: `/repo/experiments/stochastic_volatility/kernels.py:144-190`. -/
noncomputable def sv_tp_csmc_twisted (ys : Traj (n + 1) d) (D : SvDyn d)
    (stop_gradient : Bool) (resampling : Resampling m N) (ancestor_move : AncestorMove m N) (backward : Bool) (key : Key)
    (x : Fin (n + 1) → Vec d) (b : Fin (n + 1) → Fin (N + 1)) (delta : Fin (n + 1) → ℝ) : m (KOut (Vec d) N n) :=
  t_atp_kernel (svLin ys D stop_gradient) key x b delta delta resampling ancestor_move backward

/-- `Gamma_0` of `get_mala_csmc_kernel` and `get_rw_csmc_kernel`:
`/repo/experiments/stochastic_volatility/kernels.py:202-204, 248-250`. -/
noncomputable def svGamma_0 (ys : Traj (n + 1) d) (D : SvDyn d) (x : Vec d) : ℝ :=
  sv_log_potential x (ys 0) + mvn_logpdf x D.m0 0 (some (invChol D.P0)) false

/-- `Gamma_t` of `get_mala_csmc_kernel` and `get_rw_csmc_kernel`:
`/repo/experiments/stochastic_volatility/kernels.py:206-209, 252-255`. -/
noncomputable def svGamma_t (D : SvDyn d) (x_t_m_1 x_t y : Vec d) : ℝ :=
  let x_pred := D.F *ᵥ x_t_m_1 + D.b
  sv_log_potential x_t y + mvn_logpdf x_t x_pred 0 (some (invChol D.Q)) false

/-- `get_mala_csmc_kernel(style='filtering')`: `/repo/experiments/stochastic_volatility/kernels.py:193-235`. -/
noncomputable def sv_mala_csmc_filtering (ys : Traj (n + 1) d) (D : SvDyn d) (resampling : Resampling m N)
    (ancestor_move : AncestorMove m N) (backward : Bool) (key : Key)
    (x : Fin (n + 1) → Vec d) (b : Fin (n + 1) → Fin (N + 1)) (delta : Fin (n + 1) → ℝ) : m (KOut (Vec d) N n) :=
  al_kernel key x b (svGamma_0 ys D) (jaxGrad (svGamma_0 ys D)) (svGamma_t D)
    (fun x' x y => jaxGrad (fun x => svGamma_t D x' x y) x) (tailA ys) delta delta resampling ancestor_move backward

/-- `get_mala_csmc_kernel(style='marginal')`: `/repo/experiments/stochastic_volatility/kernels.py:193-235`. -/
noncomputable def sv_mala_csmc_marginal (ys : Traj (n + 1) d) (D : SvDyn d) (resampling : Resampling m N)
    (ancestor_move : AncestorMove m N) (backward : Bool) (key : Key)
    (x : Fin (n + 1) → Vec d) (b : Fin (n + 1) → Fin (N + 1)) (delta : Fin (n + 1) → ℝ) : m (KOut (Vec d) N n) :=
  l_kernel key x b (svGamma_0 ys D) (jaxGrad (svGamma_0 ys D)) (svGamma_t D)
    (fun x' x y => jaxGrad (fun x => svGamma_t D x' x y) x) (tailA ys) delta delta resampling ancestor_move backward

/-- `get_rw_csmc_kernel`: `/repo/experiments/stochastic_volatility/kernels.py:238-273`. -/
noncomputable def sv_rw_csmc (isfinite : Vec d → Bool) (ys : Traj (n + 1) d) (D : SvDyn d) (resampling : Resampling m N)
    (ancestor_move : AncestorMove m N) (backward : Bool) (key : Key)
    (x : Fin (n + 1) → Vec d) (b : Fin (n + 1) → Fin (N + 1)) (delta : Fin (n + 1) → ℝ) : m (KOut (Vec d) N n) :=
  rw_kernel isfinite key x b (svGamma_0 ys D) (svGamma_t D) (tailA ys) delta resampling ancestor_move backward

/-- `init_xs` of `one_experiment`: unconditional SMC with backward sampling from the bootstrap model,
`/repo/experiments/stochastic_volatility/experiment.py:140-146`; `ancestor_move_func=None` is never called. -/
noncomputable def sv_init (init_key : Key) (ys : Traj (n + 1) d) (D : SvDyn d) (resampling : Resampling m N)
    (ancestor_move : AncestorMove m N) (true_xs : Fin (n + 1) → Vec d) : m (Fin (n + 1) → Vec d) := do
  let r ← sv_csmc_kernel ys D resampling ancestor_move true false init_key true_xs (fun _ => 0)
  pure r.xs

end Verif.Model
