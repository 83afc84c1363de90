import Verif.Model.Kalman
import Verif.Model.AtpCsmcF

/-!
# `gradient_csmc/t_atp_csmc_f.py`: twisted Particle-aGRAD

`jax.value_and_grad(r0)` and `jax.value_and_grad(rt, argnums=1)` are parameters `r0`, `r0_grad`, `rt`, `rt_grad` of
the model.
-/

namespace Verif.Model
open Verif Matrix

variable {m : Type → Type} [RandM m] {RP : Type} {N n d : ℕ}

/-- `_get_gain`: `/repo/gradient_csmc/t_atp_csmc_f.py:323-324`. -/
noncomputable def get_gain (F Q P : Mat d d) : Mat d d := (solvePos (F * P * Fᵀ + Q) (P * Fᵀ))ᵀ

/-- `body` of `_get_reversed_dynamics`: `/repo/gradient_csmc/t_atp_csmc_f.py:306-317`. -/
noncomputable def reversedBody (carry : Vec d × Mat d d) (inp : Mat d d × Mat d d × Vec d) :
    (Vec d × Mat d d) × (Mat d d × Mat d d × Vec d) :=
  let prev_m := carry.1
  let prev_P := carry.2
  let F := inp.1
  let Q := inp.2.1
  let b := inp.2.2
  let K := get_gain F Q prev_P
  let Sigma := prev_P - K * F * prev_P
  let Sigma := (0.5 : ℝ) • (Sigma + Sigmaᵀ)
  let mu := prev_m - K *ᵥ (F *ᵥ prev_m + b)
  let m := Fᵀ *ᵥ prev_m - Fᵀ *ᵥ b
  let P := Fᵀ * prev_P * F + Q
  ((m, (0.5 : ℝ) • (P + Pᵀ)), (K, Sigma, mu))

/-- Output of `_get_reversed_dynamics`. -/
structure RevDyn (n d : ℕ) where
  mT : Vec d
  PT : Mat d d
  Fs : Fin n → Mat d d
  Qs : Fin n → Mat d d
  bs : Fin n → Vec d

/-- `_get_reversed_dynamics`: `/repo/gradient_csmc/t_atp_csmc_f.py:299-320`. -/
noncomputable def get_reversed_dynamics (m0 : Vec d) (P0 : Mat d d) (Fs Qs : Fin n → Mat d d) (bs : Fin n → Vec d) :
    RevDyn n d :=
  let r := scan reversedBody (m0, P0) (fun t => (Fs t, Qs t, bs t))
  ⟨r.1.1, r.1.2, fun t => (r.2 t).1, fun t => (r.2 t).2.1, fun t => (r.2 t).2.2⟩

/-- `make_proposal`: `/repo/gradient_csmc/t_atp_csmc_f.py:151-175`. Returns `A`, `c`, `chol_E`. -/
noncomputable def t_make_proposal (t_m_u : Vec d) (t_P_u rev_F : Mat d d) (rev_b : Vec d) (rev_Q : Mat d d) :
    Mat d d × Vec d × Mat d d :=
  let S := rev_Q + rev_F * t_P_u * rev_Fᵀ
  let A := (solvePos S (rev_F * t_P_u))ᵀ
  let rev_x_hat := rev_F *ᵥ t_m_u + rev_b
  let c := t_m_u - A *ᵥ rev_x_hat
  let E := t_P_u - A * S * Aᵀ
  let E := (0.5 : ℝ) • (E + Eᵀ)
  (A, c, cholesky E)

/-- `M0_rvs`: `/repo/gradient_csmc/t_atp_csmc_f.py:178-182`. -/
def tatpM0_rvs (key : Key) (N : ℕ) (mean : Vec d) (cholP : Mat d d) : m (Fin N → Vec d) := do
  let eps ← normal2 key N d
  pure (fun i => mean + cholP *ᵥ eps i)

/-- `M0_logpdf`: `/repo/gradient_csmc/t_atp_csmc_f.py:185-187`. -/
noncomputable def tatpM0_logpdf (x mean : Vec d) (inv_cholP : Mat d d) : ℝ :=
  mvn_logpdf x mean 0 (some inv_cholP) false

/-- `params` of `Mt_rvs` and `Mt_logpdf`: `/repo/gradient_csmc/t_atp_csmc_f.py:135, 191, 199`. -/
structure TMParams (d : ℕ) where
  A : Mat d d
  c : Vec d
  cholE : Mat d d
  inv_cholE : Mat d d

/-- `Mt_rvs`: `/repo/gradient_csmc/t_atp_csmc_f.py:190-195`. -/
def tatpMt_rvs (key : Key) {N : ℕ} (x_prev : Fin N → Vec d) (params : TMParams d) : m (Fin N → Vec d) := do
  let mean_t : Fin N → Vec d := fun i => params.A *ᵥ x_prev i + params.c
  let eps ← normal2 key N d
  pure (fun i => mean_t i + params.cholE *ᵥ eps i)

/-- `Mt_logpdf` at one particle: `/repo/gradient_csmc/t_atp_csmc_f.py:198-201`. -/
noncomputable def tatpMt_logpdf (x_prev x : Vec d) (params : TMParams d) : ℝ :=
  let mean_t := params.A *ᵥ x_prev + params.c
  mvn_logpdf x mean_t 0 (some params.inv_cholE) false

/-- `Gamma_0`: `/repo/gradient_csmc/t_atp_csmc_f.py:204-212`. -/
noncomputable def tatpGamma_0 (r0 : Vec d → ℝ) (r0_grad : Vec d → Vec d) (x u prop_m0 : Vec d)
    (prop_inv_chol_P0 : Mat d d) (delta ell : ℝ) : ℝ :=
  let out := r0 x
  let correction_term := -sumSq (fun j => u j - x j - 0.5 * delta * r0_grad x j) / ell
  let correction_term := correction_term + sumSq (fun j => u j - x j) / ell
  let correction_term := correction_term + mvn_logpdf x prop_m0 0 (some prop_inv_chol_P0) false
  out + correction_term

/-- `params` of `Gamma_t`: `/repo/gradient_csmc/t_atp_csmc_f.py:136, 216-217`. -/
structure TGParams (RP : Type) (d : ℕ) where
  u : Vec d
  delta : ℝ
  ell : ℝ
  rt : RP
  Mt : TMParams d

/-- `Gamma_t`: `/repo/gradient_csmc/t_atp_csmc_f.py:215-225`. -/
noncomputable def tatpGamma_t (rt : Vec d → Vec d → RP → ℝ) (rt_grad : Vec d → Vec d → RP → Vec d) (x_prev x : Vec d)
    (params : TGParams RP d) : ℝ :=
  let out := rt x_prev x params.rt
  let correction_term := -sumSq (fun j => params.u j - x j - 0.5 * params.delta * rt_grad x_prev x params.rt j) / params.ell
  let correction_term := correction_term + sumSq (fun j => params.u j - x j) / params.ell
  let correction_term := correction_term +
    mvn_logpdf x (params.Mt.A *ᵥ x_prev + params.Mt.c) 0 (some params.Mt.inv_cholE) false
  out + correction_term

/-- Arguments of `get_kernel` that describe the model: `/repo/gradient_csmc/t_atp_csmc_f.py:18-24`. -/
structure LinModel (RP : Type) (n d : ℕ) where
  mu0 : Vec d
  P0 : Mat d d
  r0 : Vec d → ℝ
  r0_grad : Vec d → Vec d
  Fs : Fin n → Mat d d
  bs : Fin n → Vec d
  Qs : Fin n → Mat d d
  rt : Vec d → Vec d → RP → ℝ
  rt_grad : Vec d → Vec d → RP → Vec d
  rt_params : Fin n → RP

/-- Means and covariances of `x_t` given `u_t, ..., u_T`: `/repo/gradient_csmc/t_atp_csmc_f.py:56-57, 112-115`. -/
noncomputable def tFilter (r : RevDyn n d) (ells : Fin (n + 1) → ℝ) (aux_vars : Fin (n + 1) → Vec d) :
    (Fin (n + 1) → Vec d) × (Fin (n + 1) → Mat d d) :=
  let rev_Hs : Fin (n + 1) → Mat d d := fun _ => 1
  let rev_cs : Fin (n + 1) → Vec d := fun _ => 0
  let rev_Rs : Fin (n + 1) → Mat d d := fun t => (auxStd ells t) ^ 2 • 1
  let o := filtering0 (rev aux_vars) r.mT r.PT (rev r.Fs) (rev r.Qs) (rev r.bs) rev_Hs (rev rev_Rs) rev_cs
  (rev o.1, rev o.2.1)

/-- Parameters of the proposals: `/repo/gradient_csmc/t_atp_csmc_f.py:117-118, 135`. -/
noncomputable def tProps (r : RevDyn n d) (ms : Fin (n + 1) → Vec d) (Ps : Fin (n + 1) → Mat d d) : Fin n → TMParams d :=
  fun t =>
    let p := t_make_proposal (tailA ms t) (tailA Ps t) (r.Fs t) (r.bs t) (r.Qs t)
    ⟨p.1, p.2.1, p.2.2, p.2.2⁻¹ * 1⟩

/-- `kernel` of `t_atp_csmc_f.get_kernel`, for given reversed dynamics: `/repo/gradient_csmc/t_atp_csmc_f.py:67-146`. -/
noncomputable def t_atp_kernel_rev (r : RevDyn n d) (M : LinModel RP n d) (key : Key)
    (xstar : Fin (n + 1) → Vec d) (bstar : Fin (n + 1) → Fin (N + 1)) (ells deltas : Fin (n + 1) → ℝ)
    (resampling : Resampling m N) (ancestor_move : AncestorMove m N) (backward : Bool) : m (KOut (Vec d) N n) := do
  let keys := splitKey key 3
  let key_csmc := keys 0
  let key_aux := keys 2
  let aux_std_devs := auxStd ells
  let eps_aux ← normal2 key_aux (n + 1) d
  let aux_vars := auxVars M.r0_grad M.rt_grad M.rt_params deltas aux_std_devs xstar eps_aux
  let t_u := tFilter r ells aux_vars
  let Mt_params := tProps r t_u.1 t_u.2
  let t_m0_u := t_u.1 0
  let chol_t_P0_u := cholesky (t_u.2 0)
  let inv_chol_t_P0_u := chol_t_P0_u⁻¹ * 1
  let fk : FK m (Vec d) (TMParams d) (TGParams RP d) N :=
    { M0_rvs := fun key => tatpM0_rvs key (N + 1) t_m0_u chol_t_P0_u
      M0_logpdf := fun x i => tatpM0_logpdf (x i) t_m0_u inv_chol_t_P0_u
      Gamma0 := fun x => tatpGamma_0 M.r0 M.r0_grad x (aux_vars 0) t_m0_u inv_chol_t_P0_u (deltas 0) (ells 0)
      Mt_rvs := fun key x_prev params => tatpMt_rvs key x_prev params
      Mt_logpdf := fun x_prev x params i => tatpMt_logpdf (x_prev i) (x i) params
      Gammat := tatpGamma_t M.rt M.rt_grad }
  let Gamma_t_params : Fin n → TGParams RP d := fun t =>
    ⟨tailA aux_vars t, tailA deltas t, tailA ells t, M.rt_params t, Mt_params t⟩
  csmc_kernel key_csmc xstar bstar fk Mt_params Gamma_t_params resampling ancestor_move backward true

/-- `t_atp_csmc_f.get_kernel(...)`: `/repo/gradient_csmc/t_atp_csmc_f.py:18-148`. -/
noncomputable def t_atp_kernel (M : LinModel RP n d) (key : Key)
    (xstar : Fin (n + 1) → Vec d) (bstar : Fin (n + 1) → Fin (N + 1)) (ells deltas : Fin (n + 1) → ℝ)
    (resampling : Resampling m N) (ancestor_move : AncestorMove m N) (backward : Bool) : m (KOut (Vec d) N n) :=
  t_atp_kernel_rev (get_reversed_dynamics M.mu0 M.P0 M.Fs M.Qs M.bs) M key xstar bstar ells deltas resampling
    ancestor_move backward

end Verif.Model
