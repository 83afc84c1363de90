import Verif.Model.AtpCsmcS
import Verif.Spec.GaussModel

/-!
# Particle-aGRAD and Particle-aGRAD+ with the faulty steps as parameters

The kernels of `atp_csmc_f.py` and `atp_csmc_s.py` with three steps left open:

* `prop`, the parameters of the proposals (the code: `make_proposal`, whose `chol_inv` is wrong for covariances that are
  not diagonal);
* `set`, what is done with the particles after they are drawn (the code: nothing; `al_csmc_s.py:170` and `csmc.py:129,
  151` write the reference into its place);
* `par`, the parents of the particles of time 1, given the resampled particles of time 0 and the ancestors `A_2` (the
  code: resamples them a second time).

Everything else is as in the model of the code.
-/

namespace Verif.Spec
open Verif Verif.Model Matrix

variable {m : Type → Type} [RandM m] {MP RP : Type} {N n d : ℕ}

/-- Parameters of the proposals that sample as those of the code do, and whose density is right. -/
structure RightProposal (svd : Mat d d → SvdOut d) (M : GaussModel MP RP n d) (ells : Fin (n + 1) → ℝ)
    (prop : Fin (n + 1) → PropParams d) : Prop where
  K_1 : ∀ t, (prop t).K_1 = (make_proposal svd M ells t).K_1
  K_2 : ∀ t, (prop t).K_2 = (make_proposal svd M ells t).K_2
  chol : ∀ t, (prop t).chol = (make_proposal svd M ells t).chol
  density : ∀ t, (prop t).chol_invᵀ * (prop t).chol_inv = ((prop t).chol * (prop t).cholᵀ)⁻¹

/-- `make_proposal` with `chol_inv` the inverse of `chol`; the code (`/repo/gradient_csmc/atp_csmc_f.py:153`) divides the
columns of `U` by the diagonal instead. -/
noncomputable def exactProposal (svd : Mat d d → SvdOut d) (M : GaussModel MP RP n d) (ells : Fin (n + 1) → ℝ) :
    Fin (n + 1) → PropParams d := fun t =>
  { make_proposal svd M ells t with chol_inv := (make_proposal svd M ells t).chol⁻¹ }

/-- `kernel` of `atp_csmc_f.get_kernel` (`/repo/gradient_csmc/atp_csmc_f.py:72-136`) with the parameters of the proposals
given. -/
noncomputable def atp_kernelWith (prop : Fin (n + 1) → PropParams d) (M : GaussModel MP RP n d) (key : Key)
    (xstar : Fin (n + 1) → Vec d) (bstar : Fin (n + 1) → Fin (N + 1)) (ells deltas : Fin (n + 1) → ℝ)
    (resampling : Resampling m N) (ancestor_move : AncestorMove m N) (backward : Bool) : m (KOut (Vec d) N n) := do
  let keys := splitKey key 3
  let key_csmc := keys 0
  let key_aux := keys 2
  let aux_std_devs := auxStd ells
  let eps_aux ← normal2 key_aux (n + 1) d
  let aux_vars := auxVars M.r0_grad M.rt_grad M.rt_params deltas aux_std_devs xstar eps_aux
  let inv_chol_P0 := invChol M.P0
  let inv_chol_Qs := fun t => invChol (M.Qs t)
  let fk : FK m (Vec d) (AtpMParams MP d) (AtpGParams MP RP d) N :=
    { M0_rvs := fun key => atpM0_rvs key (N + 1) (aux_vars 0) M.mu0 (prop 0).K_1 (prop 0).K_2 (prop 0).chol
      M0_logpdf := fun x i => atpM0_logpdf (x i) (aux_vars 0) M.mu0 (prop 0).K_1 (prop 0).K_2 (prop 0).chol_inv
      Gamma0 := fun x => atpGamma_0 M.r0 M.r0_grad x (aux_vars 0) M.mu0 inv_chol_P0 (deltas 0) (ells 0)
      Mt_rvs := fun key x_prev params => atpMt_rvs M.mu key x_prev params
      Mt_logpdf := fun x_prev x params i => atpMt_logpdf M.mu (x_prev i) (x i) params
      Gammat := atpGamma_t M.mu M.rt M.rt_grad }
  let Mt_params : Fin n → AtpMParams MP d := fun t =>
    ⟨tailA aux_vars t, (tailA prop t).K_1, (tailA prop t).K_2, (tailA prop t).chol, (tailA prop t).chol_inv, M.mu_params t⟩
  let Gamma_t_params : Fin n → AtpGParams MP RP d := fun t =>
    ⟨tailA aux_vars t, tailA deltas t, tailA ells t, inv_chol_Qs t, M.mu_params t, M.rt_params t⟩
  csmc_kernel key_csmc xstar bstar fk Mt_params Gamma_t_params resampling ancestor_move backward true

/-- How the particles are changed after they are drawn, given the position and the value of the reference. -/
abbrev SetRef (N d : ℕ) := (Fin (N + 1) → Vec d) → Fin (N + 1) → Vec d → (Fin (N + 1) → Vec d)

/-- The parents of the particles of time 1, given the resampled particles of time 0 and the ancestors of time 2. -/
abbrev Parents1 (N d : ℕ) := (Fin (N + 1) → Vec d) → (Fin (N + 1) → Fin (N + 1)) → (Fin (N + 1) → Vec d)

/-- `body` of the forward pass (`/repo/gradient_csmc/atp_csmc_s.py:241-263`) with `set` after the proposal. -/
noncomputable def atpsBodyWith (set : SetRef N d) (M : GaussModel MP RP (n + 1) d)
    (rt_grad0 : Vec d → Vec d → RP → Vec d)
    (resampling : Resampling m N) (c : AlsCarry N d) (inp : AtpsInp MP RP N d × Vec d) :
    m (AlsCarry N d × ((Fin (N + 1) → ℝ) × (Fin (N + 1) → Fin (N + 1)) × (Fin (N + 1) → Vec d) ×
      (Fin (N + 1) → Vec d))) := do
  let x_star_t := inp.2
  let inp := inp.1
  let keys := splitKey inp.key 2
  let key_resampling := keys 0
  let key_proposal := keys 1
  let A_t ← resampling key_resampling c.w inp.bPrev inp.bCur true
  let x_t_m_2 := take c.x2 A_t
  let x_t_m_1 := take c.x1 A_t
  let x_t ← atpMt_rvs M.mu key_proposal x_t_m_1 inp.Mt_params_t
  let x_t := set x_t inp.bCur x_star_t
  let log_w_t : Fin (N + 1) → ℝ := fun i =>
    atpsGammatTilde M rt_grad0 (x_t_m_2 i) (x_t_m_1 i) (x_t i) inp.params_t_m_1 inp.params_t
  let log_w_t : Fin (N + 1) → ℝ := fun i => log_w_t i - atpMt_logpdf M.mu (x_t_m_1 i) (x_t i) inp.Mt_params_t
  let max_w := maxA log_w_t
  let log_w_t : Fin (N + 1) → ℝ := fun i => log_w_t i - max_w
  let w_t := normalizeW log_w_t
  pure (⟨w_t, x_t, x_t_m_1⟩, (log_w_t, A_t, x_t_m_1, x_t))

/-- Initialisation and forward pass (`/repo/gradient_csmc/atp_csmc_s.py:127-286`) with `prop`, `set` and `par`. -/
noncomputable def atpsForwardWith (set : SetRef N d) (par : Parents1 N d) (prop : Fin (n + 3) → PropParams d)
    (M : GaussModel MP RP (n + 2) d) (rt_grad0 : Vec d → Vec d → RP → Vec d) (key : Key)
    (xstar : Fin (n + 3) → Vec d) (bstar : Fin (n + 3) → Fin (N + 1))
    (ells deltas : Fin (n + 3) → ℝ) (resampling : Resampling m N) (aux_vars : Fin (n + 3) → Vec d) :
    m (AlsFwd N n d) := do
  let Mt_params := atpsMtParams M prop aux_vars
  let keys_init := splitKey (splitKey key (n + 5) 0) 2
  let x0 ← atpM0_rvs (keys_init 0) (N + 1) (aux_vars 0) M.mu0 (prop 0).K_1 (prop 0).K_2 (prop 0).chol
  let x0 := set x0 (bstar 0) (xstar 0)
  let log_w0 : Fin (N + 1) → ℝ := fun i => atpsGamma0Tilde M (x0 i) (deltas 0) (ells 0) (aux_vars 0)
  let log_w0 : Fin (N + 1) → ℝ := fun i =>
    log_w0 i - atpM0_logpdf (x0 i) (aux_vars 0) M.mu0 (prop 0).K_1 (prop 0).K_2 (prop 0).chol_inv
  let max_w0 := maxA log_w0
  let log_w0 : Fin (N + 1) → ℝ := fun i => log_w0 i - max_w0
  let w0 := normalizeW log_w0
  let A_0 ← resampling (keysResampling key (n + 2) 0) w0 (bstar 0) (bstar 1) true
  let x0_resampled := take x0 A_0
  let x1 ← atpMt_rvs M.mu (keys_init 1) x0_resampled (Mt_params 0)
  let x1 := set x1 (bstar 1) (xstar 1)
  let p1 := atpsParams1 M deltas ells aux_vars
  let log_w1 : Fin (N + 1) → ℝ := fun i => atpsGamma1Tilde M rt_grad0 (x0_resampled i) (x1 i) p1.1 p1.2
  let log_w1 : Fin (N + 1) → ℝ := fun i =>
    log_w1 i - atpMt_logpdf M.mu (x0_resampled i) (x1 i) (Mt_params 0)
  let w1 := normalizeW log_w1
  let params := atpsParams M deltas ells aux_vars
  let r ← scanM (atpsBodyWith set M rt_grad0 resampling) ⟨w1, x1, x0_resampled⟩
    (fun t => (atpsInputs key Mt_params params bstar t, tailA (tailA xstar) t))
  let xs := insert0 x1 (fun t => (r.2 t).2.2.2)
  let xs := insert0 x0 xs
  let log_ws := insert0 log_w1 (fun t => (r.2 t).1)
  let log_ws := insert0 log_w0 log_ws
  let As := insert0 A_0 (fun t => (r.2 t).2.1)
  let xs_m_1 := insert0 (par x0_resampled (As 1)) (fun t => (r.2 t).2.2.1)
  pure { xs := xs, log_ws := log_ws, As := As, xs_m_1 := xs_m_1 }

/-- `kernel` of `atp_csmc_s.get_kernel` (`/repo/gradient_csmc/atp_csmc_s.py:76-298`) with `prop`, `set` and `par`. -/
noncomputable def atps_kernelWith (set : SetRef N d) (par : Parents1 N d) (prop : Fin (n + 3) → PropParams d)
    (M : GaussModel MP RP (n + 2) d) (rt_grad0 : Vec d → Vec d → RP → Vec d) (key : Key)
    (xstar : Fin (n + 3) → Vec d) (bstar : Fin (n + 3) → Fin (N + 1)) (ells deltas : Fin (n + 3) → ℝ)
    (resampling : Resampling m N) (ancestor_move : AncestorMove m N) (backward : Bool) :
    m ((Fin (n + 3) → Vec d) × (Fin (n + 3) → Fin (N + 1))) := do
  let keys := splitKey key (n + 5)
  let key_aux := keys 1
  let key_backward := keys 2
  let aux_std_devs := auxStd ells
  let grad_log_w_star := fullGrad M.r0_grad rt_grad0 M.rt_grad M.rt_params xstar
  let eps_aux ← normal2 key_aux (n + 3) d
  let aux_vars : Fin (n + 3) → Vec d := fun t j =>
    xstar t j + 0.5 * deltas t * grad_log_w_star t j + aux_std_devs t * eps_aux t j
  let F ← atpsForwardWith set par prop M rt_grad0 key xstar bstar ells deltas resampling aux_vars
  if backward then
    als_backward_sampling_pass key_backward (atpsGammatTilde M rt_grad0) (atpsParams M deltas ells aux_vars)
      (atpsGamma1Tilde M rt_grad0) (atpsParams1 M deltas ells aux_vars) (lastA bstar) F.xs F.xs_m_1 F.log_ws
      ancestor_move
  else
    backward_scanning_pass key_backward F.As (lastA bstar) F.xs (lastA F.log_ws) ancestor_move

end Verif.Spec
