import Verif.Model.Linalg
import Verif.Model.AlCsmcF
import Verif.Model.Csmc

/-!
# `gradient_csmc/atp_csmc_f.py`: Particle-aGRAD

`jax.value_and_grad(r0)` and `jax.value_and_grad(rt, argnums=1)` are parameters `r0`, `r0_grad`, `rt`, `rt_grad` of
the model, and so is `jnp.linalg.svd(z, hermitian=True)`.
-/

namespace Verif.Model
open Verif Matrix

variable {m : Type → Type} [RandM m] {MP RP : Type} {N n d : ℕ}

/-- `_STABLE_ZERO`: `/repo/gradient_csmc/atp_csmc_f.py:15`. -/
noncomputable def stableZero : ℝ := 1e-15

/-- Result `(U, S, Vh)` of `jnp.linalg.svd(z, hermitian=True)`. -/
structure SvdOut (d : ℕ) where
  U : Mat d d
  Gamma : Vec d
  U_t : Mat d d

/-- Output of `_get_proposal_params` (with `get_K_inv=True`). -/
structure PropParams (d : ℕ) where
  K_1 : Mat d d
  K_2 : Mat d d
  chol : Mat d d
  chol_inv : Mat d d
  K_inv : Mat d d

/-- `_get_proposal_params`: `/repo/gradient_csmc/atp_csmc_f.py:144-157`. -/
noncomputable def get_proposal_params (ell : ℝ) (s : SvdOut d) : PropParams d :=
  let inv_pred_cov : Vec d := fun j => 1 / (s.Gamma j + ell / 2)
  let Gamma_delta : Vec d := fun j => s.Gamma j * inv_pred_cov j
  let temp : Vec d := fun j => max (s.Gamma j - s.Gamma j ^ 2 * inv_pred_cov j) stableZero
  let temp : Vec d := fun j => Real.sqrt (temp j)
  { K_1 := s.U
    K_2 := fun i j => Gamma_delta i * s.U_t i j
    chol := fun i j => s.U i j * temp j
    chol_inv := fun i j => s.U i j / temp j
    K_inv := s.U * Matrix.of fun i j => s.U_t i j / Gamma_delta i }

/-- Arguments of `get_kernel` that describe the model: initial mean and covariance, log-potentials, conditional means
and covariances; `/repo/gradient_csmc/atp_csmc_f.py:18-22`, also `tp_csmc.py:18-22`. -/
structure GaussModel (MP RP : Type) (n d : ℕ) where
  mu0 : Vec d
  P0 : Mat d d
  r0 : Vec d → ℝ
  r0_grad : Vec d → Vec d
  mu : Vec d → MP → Vec d
  mu_params : Fin n → MP
  Qs : Fin n → Mat d d
  rt : Vec d → Vec d → RP → ℝ
  rt_grad : Vec d → Vec d → RP → Vec d
  rt_params : Fin n → RP

/-- `make_proposal(jnp.insert(Qs, 0, P0, axis=0))(ells)`: `/repo/gradient_csmc/atp_csmc_f.py:63-64, 141-162`. -/
noncomputable def make_proposal (svd : Mat d d → SvdOut d) (M : GaussModel MP RP n d) (ells : Fin (n + 1) → ℝ) :
    Fin (n + 1) → PropParams d :=
  let Qs_ := insert0 M.P0 M.Qs
  fun t => get_proposal_params (ells t) (svd (Qs_ t))

/-- `solve_triangular(chol, eye, lower=True)` for `chol = jnp.linalg.cholesky(Q)`:
`/repo/gradient_csmc/atp_csmc_f.py:57-61`. -/
noncomputable def invChol (Q : Mat d d) : Mat d d := (cholesky Q)⁻¹ * 1

/-- `M0_rvs`: `/repo/gradient_csmc/atp_csmc_f.py:165-173`. -/
def atpM0_rvs (key : Key) (N : ℕ) (u mu0 : Vec d) (K_1 K_2 chol_prop : Mat d d) : m (Fin N → Vec d) := do
  let mean_0 := K_2 *ᵥ (u - mu0)
  let mean_0 := mu0 + K_1 *ᵥ mean_0
  let eps ← normal2 key N d
  pure (fun i => mean_0 + chol_prop *ᵥ eps i)

/-- `M0_logpdf`: `/repo/gradient_csmc/atp_csmc_f.py:176-180`. -/
noncomputable def atpM0_logpdf (x u mu0 : Vec d) (K_1 K_2 chol_prop_inv : Mat d d) : ℝ :=
  let mean_0 := K_2 *ᵥ (u - mu0)
  let mean_0 := mu0 + K_1 *ᵥ mean_0
  mvn_logpdf x mean_0 0 (some chol_prop_inv) false

/-- Mean of the proposal given the parent: `/repo/gradient_csmc/atp_csmc_f.py:186-187, 194-195`. -/
def atpMean (mean_prior u : Vec d) (K_1 K_2 : Mat d d) : Vec d := mean_prior + K_1 *ᵥ (K_2 *ᵥ (u - mean_prior))

/-- `params` of `Mt_rvs` and `Mt_logpdf`: `/repo/gradient_csmc/atp_csmc_f.py:126, 184, 193`. -/
structure AtpMParams (MP : Type) (d : ℕ) where
  u : Vec d
  K_1 : Mat d d
  K_2 : Mat d d
  chol : Mat d d
  chol_inv : Mat d d
  mu : MP

/-- `Mt_rvs`: `/repo/gradient_csmc/atp_csmc_f.py:183-189`. -/
def atpMt_rvs (mu : Vec d → MP → Vec d) (key : Key) {N : ℕ} (x_prev : Fin N → Vec d) (params : AtpMParams MP d) :
    m (Fin N → Vec d) := do
  let mean_t : Fin N → Vec d := fun i => atpMean (mu (x_prev i) params.mu) params.u params.K_1 params.K_2
  let eps ← normal2 key N d
  pure (fun i => mean_t i + params.chol *ᵥ eps i)

/-- `Mt_logpdf` at one particle: `/repo/gradient_csmc/atp_csmc_f.py:192-196`. -/
noncomputable def atpMt_logpdf (mu : Vec d → MP → Vec d) (x_prev x : Vec d) (params : AtpMParams MP d) : ℝ :=
  let mean_t := atpMean (mu x_prev params.mu) params.u params.K_1 params.K_2
  mvn_logpdf x mean_t 0 (some params.chol_inv) false

/-- `Gamma_0`: `/repo/gradient_csmc/atp_csmc_f.py:199-206`. -/
noncomputable def atpGamma_0 (r0 : Vec d → ℝ) (r0_grad : Vec d → Vec d) (x u mu0 : Vec d) (inv_chol_P0 : Mat d d)
    (delta ell : ℝ) : ℝ :=
  let out := mvn_logpdf x mu0 0 (some inv_chol_P0) false
  let out := out + r0 x
  let correction_term := -sumSq (fun j => u j - x j - 0.5 * delta * r0_grad x j) / ell
  out + correction_term

/-- `params` of `Gamma_t`: `/repo/gradient_csmc/atp_csmc_f.py:128, 210`. -/
structure AtpGParams (MP RP : Type) (d : ℕ) where
  u : Vec d
  delta : ℝ
  ell : ℝ
  inv_chol_Q : Mat d d
  mu : MP
  rt : RP

/-- `Gamma_t`: `/repo/gradient_csmc/atp_csmc_f.py:209-217`. -/
noncomputable def atpGamma_t (mu : Vec d → MP → Vec d) (rt : Vec d → Vec d → RP → ℝ)
    (rt_grad : Vec d → Vec d → RP → Vec d) (x_prev x : Vec d) (params : AtpGParams MP RP d) : ℝ :=
  let out := mvn_logpdf x (mu x_prev params.mu) 0 (some params.inv_chol_Q) false
  let out := out + rt x_prev x params.rt
  let correction_term := -sumSq (fun j => params.u j - x j - 0.5 * params.delta * rt_grad x_prev x params.rt j) / params.ell
  out + correction_term

/-- `kernel` of `atp_csmc_f.get_kernel`: `/repo/gradient_csmc/atp_csmc_f.py:72-136`. -/
noncomputable def atp_kernel (svd : Mat d d → SvdOut d) (M : GaussModel MP RP n d) (key : Key)
    (xstar : Fin (n + 1) → Vec d) (bstar : Fin (n + 1) → Fin (N + 1)) (ells deltas : Fin (n + 1) → ℝ)
    (resampling : Resampling m N) (ancestor_move : AncestorMove m N) (backward : Bool) : m (KOut (Vec d) N n) := do
  let prop := make_proposal svd M ells
  let keys := splitKey key 3
  let key_csmc := keys 0
  let key_aux := keys 2
  let aux_std_devs := auxStd ells
  let eps_aux ← normal2 key_aux (n + 1) d
  let aux_vars := auxVars M.r0_grad M.rt_grad M.rt_params deltas aux_std_devs xstar eps_aux
  let inv_chol_P0 := invChol M.P0
  let inv_chol_Qs := fun t => invChol (M.Qs t)
  let fk : FK m (Vec d) (AtpMParams MP d) (AtpGParams MP RP d) N :=
    { M0_rvs := fun key => atpM0_rvs key (N + 1) (aux_vars 0) M.mu0 (prop 0).K_1 (prop 0).K_2 (prop 0).chol
      M0_logpdf := fun x i => atpM0_logpdf (x i) (aux_vars 0) M.mu0 (prop 0).K_1 (prop 0).K_2 (prop 0).chol_inv
      Gamma0 := fun x => atpGamma_0 M.r0 M.r0_grad x (aux_vars 0) M.mu0 inv_chol_P0 (deltas 0) (ells 0)
      Mt_rvs := fun key x_prev params => atpMt_rvs M.mu key x_prev params
      Mt_logpdf := fun x_prev x params i => atpMt_logpdf M.mu (x_prev i) (x i) params
      Gammat := atpGamma_t M.mu M.rt M.rt_grad }
  let Mt_params : Fin n → AtpMParams MP d := fun t =>
    ⟨tailA aux_vars t, (tailA prop t).K_1, (tailA prop t).K_2, (tailA prop t).chol, (tailA prop t).chol_inv, M.mu_params t⟩
  let Gamma_t_params : Fin n → AtpGParams MP RP d := fun t =>
    ⟨tailA aux_vars t, tailA deltas t, tailA ells t, inv_chol_Qs t, M.mu_params t, M.rt_params t⟩
  csmc_kernel key_csmc xstar bstar fk Mt_params Gamma_t_params resampling ancestor_move backward true

end Verif.Model
