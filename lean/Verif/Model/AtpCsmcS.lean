import Verif.Model.AlCsmcS
import Verif.Model.AtpCsmcF

/-!
# `gradient_csmc/atp_csmc_s.py`: Particle-aGRAD+

`T = n + 3` time steps, `N + 1` particles in `ℝ^d`.  `jax.value_and_grad(rt, (0, 1))` is given by the functions
`M.rt`, `rt_grad0` (gradient in the first argument) and `M.rt_grad` (in the second).
-/

namespace Verif.Model
open Verif Matrix

variable {m : Type → Type} [RandM m] {MP RP : Type} {N n d : ℕ}

/-- `params_1`: `/repo/gradient_csmc/atp_csmc_s.py:152, 234-235`. -/
structure AtpsParams1 (MP RP : Type) (d : ℕ) where
  delta : ℝ
  ell : ℝ
  u : Vec d
  rt : RP
  mu : MP

/-- `Gamma_0_tilde`: `/repo/gradient_csmc/atp_csmc_s.py:143-148`. -/
noncomputable def atpsGamma0Tilde (M : GaussModel MP RP n d) (x : Vec d) (delta ell : ℝ) (u : Vec d) : ℝ :=
  let out := M.r0 x
  let mean := alsMean x delta (M.r0_grad x)
  let out := out + mvn_logpdf x M.mu0 0 (some (invChol M.P0)) false
  let correction := alsCorrection u mean ell
  out + correction

/-- `Gamma_1_tilde`: `/repo/gradient_csmc/atp_csmc_s.py:150-167`. -/
noncomputable def atpsGamma1Tilde (M : GaussModel MP RP (n + 1) d) (rt_grad0 : Vec d → Vec d → RP → Vec d)
    (x_0 x_1 : Vec d) (params_0 : AlsParams0 d) (params_1 : AtpsParams1 MP RP d) : ℝ :=
  let out := M.rt x_0 x_1 params_1.rt
  let grad_0_1 := rt_grad0 x_0 x_1 params_1.rt
  let grad_1_1 := M.rt_grad x_0 x_1 params_1.rt
  let grad_0_0 := M.r0_grad x_0
  let out := out + mvn_logpdf x_1 (M.mu x_0 params_1.mu) 0 (some (invChol (M.Qs 0))) false
  let mean_0_1 := alsMean x_0 params_0.delta (grad_0_1 + grad_0_0)
  let mean_1_1 := alsMean x_1 params_1.delta grad_1_1
  let mean_0_0 := alsMean x_0 params_0.delta grad_0_0
  let correction_0_1 := alsCorrection params_0.u mean_0_1 params_0.ell
  let correction_1_1 := alsCorrection params_1.u mean_1_1 params_1.ell
  let correction_0_0 := alsCorrection params_0.u mean_0_0 params_0.ell
  let correction := correction_0_1 + correction_1_1 - correction_0_0
  out + correction

/-- `Gamma_t_tilde`: `/repo/gradient_csmc/atp_csmc_s.py:169-187`. -/
noncomputable def atpsGammatTilde (M : GaussModel MP RP n d) (rt_grad0 : Vec d → Vec d → RP → Vec d)
    (x_t_m_2 x_t_m_1 x_t : Vec d) (params_t_m_1 params_t : AtpGParams MP RP d) : ℝ :=
  let out := M.rt x_t_m_1 x_t params_t.rt
  let grad_t_m_1_t := rt_grad0 x_t_m_1 x_t params_t.rt
  let grad_t_t := M.rt_grad x_t_m_1 x_t params_t.rt
  let grad_t_m_1_t_m_1 := M.rt_grad x_t_m_2 x_t_m_1 params_t_m_1.rt
  let out := out + mvn_logpdf x_t (M.mu x_t_m_1 params_t.mu) 0 (some params_t.inv_chol_Q) false
  let mean_t_m_1_t := alsMean x_t_m_1 params_t_m_1.delta (grad_t_m_1_t + grad_t_m_1_t_m_1)
  let mean_t_t := alsMean x_t params_t.delta grad_t_t
  let mean_t_m_1_t_m_1 := alsMean x_t_m_1 params_t_m_1.delta grad_t_m_1_t_m_1
  let correction_t_m_1_t := alsCorrection params_t_m_1.u mean_t_m_1_t params_t_m_1.ell
  let correction_t_t := alsCorrection params_t.u mean_t_t params_t.ell
  let correction_t_m_1_t_m_1 := alsCorrection params_t_m_1.u mean_t_m_1_t_m_1 params_t_m_1.ell
  let correction := correction_t_m_1_t + correction_t_t - correction_t_m_1_t_m_1
  out + correction

/-- Inputs of the forward scan: `/repo/gradient_csmc/atp_csmc_s.py:243, 267-271`. -/
structure AtpsInp (MP RP : Type) (N d : ℕ) where
  Mt_params_t : AtpMParams MP d
  params_t_m_1 : AtpGParams MP RP d
  params_t : AtpGParams MP RP d
  bPrev : Fin (N + 1)
  bCur : Fin (N + 1)
  key : Key

/-- `body` of the forward pass: `/repo/gradient_csmc/atp_csmc_s.py:241-263`.  The saved values are
`(log_w_t, A_t, x_t_m_1, x_t)`.  `G_t_tilde` is `Gamma_t_tilde` (lines 204-208). -/
noncomputable def atpsBody (M : GaussModel MP RP (n + 1) d) (rt_grad0 : Vec d → Vec d → RP → Vec d)
    (resampling : Resampling m N) (c : AlsCarry N d) (inp : AtpsInp MP RP N d) :
    m (AlsCarry N d × ((Fin (N + 1) → ℝ) × (Fin (N + 1) → Fin (N + 1)) × (Fin (N + 1) → Vec d) ×
      (Fin (N + 1) → Vec d))) := do
  let keys := splitKey inp.key 2
  let key_resampling := keys 0
  let key_proposal := keys 1
  let A_t ← resampling key_resampling c.w inp.bPrev inp.bCur true
  let x_t_m_2 := take c.x2 A_t
  let x_t_m_1 := take c.x1 A_t
  let x_t ← atpMt_rvs M.mu key_proposal x_t_m_1 inp.Mt_params_t
  let log_w_t : Fin (N + 1) → ℝ := fun i =>
    atpsGammatTilde M rt_grad0 (x_t_m_2 i) (x_t_m_1 i) (x_t i) inp.params_t_m_1 inp.params_t
  let log_w_t : Fin (N + 1) → ℝ := fun i => log_w_t i - atpMt_logpdf M.mu (x_t_m_1 i) (x_t i) inp.Mt_params_t
  let max_w := maxA log_w_t
  let log_w_t : Fin (N + 1) → ℝ := fun i => log_w_t i - max_w
  let w_t := normalizeW log_w_t
  pure (⟨w_t, x_t, x_t_m_1⟩, (log_w_t, A_t, x_t_m_1, x_t))

/-- `Mt_params`: `/repo/gradient_csmc/atp_csmc_s.py:137`. -/
def atpsMtParams (M : GaussModel MP RP n d) (prop : Fin (n + 1) → PropParams d) (aux_vars : Fin (n + 1) → Vec d) :
    Fin n → AtpMParams MP d := fun t =>
  ⟨tailA aux_vars t, (tailA prop t).K_1, (tailA prop t).K_2, (tailA prop t).chol, (tailA prop t).chol_inv, M.mu_params t⟩

/-- `Gamma_tilde_params`: `/repo/gradient_csmc/atp_csmc_s.py:267`. -/
noncomputable def atpsParams (M : GaussModel MP RP n d) (deltas ells : Fin (n + 1) → ℝ) (aux_vars : Fin (n + 1) → Vec d) :
    Fin n → AtpGParams MP RP d := fun t =>
  { u := tailA aux_vars t, delta := tailA deltas t, ell := tailA ells t, inv_chol_Q := invChol (M.Qs t)
    mu := M.mu_params t, rt := M.rt_params t }

/-- `Gamma_tilde_params_1`: `/repo/gradient_csmc/atp_csmc_s.py:232-235`. -/
def atpsParams1 (M : GaussModel MP RP (n + 1) d) (deltas ells : Fin (n + 2) → ℝ) (aux_vars : Fin (n + 2) → Vec d) :
    AlsParams0 d × AtpsParams1 MP RP d :=
  ({ delta := deltas 0, ell := ells 0, u := aux_vars 0 },
    { delta := deltas 1, ell := ells 1, u := aux_vars 1, rt := M.rt_params 0, mu := M.mu_params 0 })

/-- Inputs of the forward scan: `/repo/gradient_csmc/atp_csmc_s.py:267-271`. -/
def atpsInputs (key : Key) (Mt_params : Fin (n + 2) → AtpMParams MP d) (params : Fin (n + 2) → AtpGParams MP RP d)
    (bstar : Fin (n + 3) → Fin (N + 1)) : Fin (n + 1) → AtpsInp MP RP N d := fun t =>
  { Mt_params_t := tailA Mt_params t
    params_t_m_1 := initA params t
    params_t := tailA params t
    bPrev := tailA (initA bstar) t
    bCur := tailA (tailA bstar) t
    key := tailA (keysResampling key (n + 2)) t }

/-- Initialisation and forward pass: `/repo/gradient_csmc/atp_csmc_s.py:127-286`.  The reference trajectory is not an
argument: the code does not read it here. -/
noncomputable def atpsForward (svd : Mat d d → SvdOut d) (M : GaussModel MP RP (n + 2) d)
    (rt_grad0 : Vec d → Vec d → RP → Vec d) (key : Key) (bstar : Fin (n + 3) → Fin (N + 1))
    (ells deltas : Fin (n + 3) → ℝ) (resampling : Resampling m N) (aux_vars : Fin (n + 3) → Vec d) :
    m (AlsFwd N n d) := do
  let prop := make_proposal svd M ells
  let Mt_params := atpsMtParams M prop aux_vars
  let keys_init := splitKey (splitKey key (n + 5) 0) 2
  let x0 ← atpM0_rvs (keys_init 0) (N + 1) (aux_vars 0) M.mu0 (prop 0).K_1 (prop 0).K_2 (prop 0).chol
  let log_w0 : Fin (N + 1) → ℝ := fun i => atpsGamma0Tilde M (x0 i) (deltas 0) (ells 0) (aux_vars 0)
  let log_w0 : Fin (N + 1) → ℝ := fun i =>
    log_w0 i - atpM0_logpdf (x0 i) (aux_vars 0) M.mu0 (prop 0).K_1 (prop 0).K_2 (prop 0).chol_inv
  let max_w0 := maxA log_w0
  let log_w0 : Fin (N + 1) → ℝ := fun i => log_w0 i - max_w0
  let w0 := normalizeW log_w0
  let A_0 ← resampling (keysResampling key (n + 2) 0) w0 (bstar 0) (bstar 1) true
  let x0_resampled := take x0 A_0
  let x1 ← atpMt_rvs M.mu (keys_init 1) x0_resampled (Mt_params 0)
  let p1 := atpsParams1 M deltas ells aux_vars
  let log_w1 : Fin (N + 1) → ℝ := fun i => atpsGamma1Tilde M rt_grad0 (x0_resampled i) (x1 i) p1.1 p1.2
  let log_w1 : Fin (N + 1) → ℝ := fun i =>
    log_w1 i - atpMt_logpdf M.mu (x0_resampled i) (x1 i) (Mt_params 0)
  let w1 := normalizeW log_w1
  let params := atpsParams M deltas ells aux_vars
  let r ← scanM (atpsBody M rt_grad0 resampling) ⟨w1, x1, x0_resampled⟩ (atpsInputs key Mt_params params bstar)
  let xs := insert0 x1 (fun t => (r.2 t).2.2.2)
  let xs := insert0 x0 xs
  let log_ws := insert0 log_w1 (fun t => (r.2 t).1)
  let log_ws := insert0 log_w0 log_ws
  let As := insert0 A_0 (fun t => (r.2 t).2.1)
  let xs_m_1 := insert0 (take x0_resampled (As 1)) (fun t => (r.2 t).2.2.1)
  pure { xs := xs, log_ws := log_ws, As := As, xs_m_1 := xs_m_1 }

/-- `kernel` of `atp_csmc_s.get_kernel`: `/repo/gradient_csmc/atp_csmc_s.py:76-298`. -/
noncomputable def atps_kernel (svd : Mat d d → SvdOut d) (M : GaussModel MP RP (n + 2) d)
    (rt_grad0 : Vec d → Vec d → RP → Vec d) (key : Key)
    (xstar : Fin (n + 3) → Vec d) (bstar : Fin (n + 3) → Fin (N + 1)) (ells deltas : Fin (n + 3) → ℝ)
    (resampling : Resampling m N) (ancestor_move : AncestorMove m N) (backward : Bool) :
    m ((Fin (n + 3) → Vec d) × (Fin (n + 3) → Fin (N + 1))) := do
  let keys := splitKey key (n + 5)
  let key_aux := keys 1
  let key_backward := keys 2
  let aux_std_devs := auxStd ells
  let grad_log_w_star := fullGrad M.r0_grad rt_grad0 M.rt_grad M.rt_params xstar
  let eps_aux ← normal2 key_aux (n + 3) d
  let aux_vars : Fin (n + 3) → Vec d := fun t j =>
    xstar t j + 0.5 * deltas t * grad_log_w_star t j + aux_std_devs t * eps_aux t j
  let F ← atpsForward svd M rt_grad0 key bstar ells deltas resampling aux_vars
  if backward then
    als_backward_sampling_pass key_backward (atpsGammatTilde M rt_grad0) (atpsParams M deltas ells aux_vars)
      (atpsGamma1Tilde M rt_grad0) (atpsParams1 M deltas ells aux_vars) (lastA bstar) F.xs F.xs_m_1 F.log_ws
      ancestor_move
  else
    backward_scanning_pass key_backward F.As (lastA bstar) F.xs (lastA F.log_ws) ancestor_move

end Verif.Model
