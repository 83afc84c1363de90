import Mathlib.LinearAlgebra.Matrix.DotProduct
import Verif.Model.RwCsmc

/-!
# `gradient_csmc/al_csmc_f.py`: Particle-aMALA

`jax.grad(Gamma_0, 0)` and `jax.grad(Gamma_t, 1)` are parameters `Gamma0_grad`, `Gammat_grad` of the model.
-/

namespace Verif.Model
open Verif

variable {m : Type → Type} [RandM m] {G : Type} {N n d : ℕ}

/-- `sum(v ** 2, axis=-1)`. -/
def sumSq (v : Vec d) : ℝ := ∑ j, v j ^ 2

/-- Auxiliary variables: `/repo/gradient_csmc/al_csmc_f.py:112-117`, also `l_csmc_f.py:105-110`. -/
noncomputable def auxVars (Gamma0_grad : Vec d → Vec d) (Gammat_grad : Vec d → Vec d → G → Vec d)
    (Gparams : Fin n → G) (deltas : Fin (n + 1) → ℝ) (aux_std_devs : Fin (n + 1) → ℝ)
    (xstar : Fin (n + 1) → Vec d) (eps_aux : Fin (n + 1) → Vec d) : Fin (n + 1) → Vec d :=
  let grad_log_w_star_0 := Gamma0_grad (xstar 0)
  let grad_log_w_star := fun t => Gammat_grad (initA xstar t) (tailA xstar t) (Gparams t)
  let grad_log_w_star := insert0 grad_log_w_star_0 grad_log_w_star
  fun t j => xstar t j + 0.5 * deltas t * grad_log_w_star t j + aux_std_devs t * eps_aux t j

/-- `Gamma_0_tilde`: `/repo/gradient_csmc/al_csmc_f.py:74-81`. -/
noncomputable def alGamma0Tilde (Gamma0 : Vec d → ℝ) (Gamma0_grad : Vec d → Vec d) (x_0 : Vec d)
    (delta_0 ell_0 : ℝ) (u_0 : Vec d) : ℝ :=
  let Gamma_val := Gamma0 x_0
  let Gamma_grad := Gamma0_grad x_0
  let gradient_log_pdf := -sumSq (fun j => u_0 j - x_0 j - 0.5 * delta_0 * Gamma_grad j) / ell_0
  Gamma_val + gradient_log_pdf

/-- `G_0_tilde`: `/repo/gradient_csmc/al_csmc_f.py:83-86`. -/
noncomputable def alG0Tilde (Gamma0 : Vec d → ℝ) (Gamma0_grad : Vec d → Vec d) (x_0 : Vec d)
    (delta_0 ell_0 : ℝ) (u_0 : Vec d) : ℝ :=
  let proposal_log_pdf := -sumSq (fun j => x_0 j - u_0 j) / ell_0
  alGamma0Tilde Gamma0 Gamma0_grad x_0 delta_0 ell_0 u_0 - proposal_log_pdf

/-- `params` of `Gamma_t_tilde` and `G_t_tilde`: `/repo/gradient_csmc/al_csmc_f.py:89, 100, 157`. -/
structure AlParams (G : Type) (d : ℕ) where
  delta : ℝ
  ell : ℝ
  u : Vec d
  original : G

/-- `Gamma_t_tilde`: `/repo/gradient_csmc/al_csmc_f.py:88-97`. -/
noncomputable def alGammatTilde (Gammat : Vec d → Vec d → G → ℝ)
    (Gammat_grad : Vec d → Vec d → G → Vec d) (x_t_m_1 x_t : Vec d) (params : AlParams G d) : ℝ :=
  let Gamma_val := Gammat x_t_m_1 x_t params.original
  let Gamma_grad := Gammat_grad x_t_m_1 x_t params.original
  let gradient_log_pdf :=
    -sumSq (fun j => params.u j - x_t j - 0.5 * params.delta * Gamma_grad j) / params.ell
  Gamma_val + gradient_log_pdf

/-- `G_t_tilde`: `/repo/gradient_csmc/al_csmc_f.py:99-103`. -/
noncomputable def alGtTilde (Gammat : Vec d → Vec d → G → ℝ)
    (Gammat_grad : Vec d → Vec d → G → Vec d) (x_t_m_1 x_t : Vec d) (params : AlParams G d) : ℝ :=
  let proposal_log_pdf := -sumSq (fun j => x_t j - params.u j) / params.ell
  alGammatTilde Gammat Gammat_grad x_t_m_1 x_t params - proposal_log_pdf

/-- `body` of the forward pass: `/repo/gradient_csmc/al_csmc_f.py:138-154`. -/
noncomputable def alBody (Gammat : Vec d → Vec d → G → ℝ)
    (Gammat_grad : Vec d → Vec d → G → Vec d) (resampling : Resampling m N)
    (c : (Fin (N + 1) → ℝ) × (Fin (N + 1) → Vec d)) (inp : AuxInp (AlParams G d) (Vec d) N) :
    m (((Fin (N + 1) → ℝ) × (Fin (N + 1) → Vec d)) × ((Fin (N + 1) → ℝ) × (Fin (N + 1) → Fin (N + 1)))) := do
  let w_prev := c.1
  let x_prev := c.2
  let A ← resampling inp.key w_prev inp.bPrev inp.bCur true
  let x_prev := take x_prev A
  let log_w : Fin (N + 1) → ℝ := fun i => alGtTilde Gammat Gammat_grad (x_prev i) (inp.x_t i) inp.params
  let max_w := maxA log_w
  let log_w : Fin (N + 1) → ℝ := fun i => log_w i - max_w
  let w := normalizeW log_w
  pure ((w, inp.x_t), (log_w, A))

/-- `kernel`: `/repo/gradient_csmc/al_csmc_f.py:14-174`. -/
noncomputable def al_kernel (key : Key) (xstar : Fin (n + 1) → Vec d) (bstar : Fin (n + 1) → Fin (N + 1))
    (Gamma0 : Vec d → ℝ) (Gamma0_grad : Vec d → Vec d) (Gammat : Vec d → Vec d → G → ℝ)
    (Gammat_grad : Vec d → Vec d → G → Vec d) (Gparams : Fin n → G)
    (ells deltas : Fin (n + 1) → ℝ) (resampling : Resampling m N) (ancestor_move : AncestorMove m N)
    (backward : Bool) : m (KOut (Vec d) N n) := do
  let keys := splitKey key (n + 3)
  let key_proposals := keys 0
  let key_aux := keys 1
  let key_backward := keys 2
  let aux_std_devs := auxStd ells
  let eps_aux ← normal2 key_aux (n + 1) d
  let aux_vars := auxVars Gamma0_grad Gammat_grad Gparams deltas aux_std_devs xstar eps_aux
  let eps_proposals ← normal3 key_proposals (n + 1) (N + 1) d
  let xs := auxParticles aux_vars aux_std_devs eps_proposals bstar xstar
  let log_w0 : Fin (N + 1) → ℝ := fun i =>
    alG0Tilde Gamma0 Gamma0_grad (xs 0 i) (deltas 0) (ells 0) (aux_vars 0)
  let max_w0 := maxA log_w0
  let log_w0 : Fin (N + 1) → ℝ := fun i => log_w0 i - max_w0
  let w0 := normalizeW log_w0
  let Gamma_tilde_params : Fin n → AlParams G d := fun t =>
    { delta := tailA deltas t, ell := tailA ells t, u := tailA aux_vars t, original := Gparams t }
  let r ← scanM (alBody Gammat Gammat_grad resampling) (w0, xs 0)
    (auxInputs key Gamma_tilde_params xs bstar)
  let log_ws := insert0 log_w0 (fun t => (r.2 t).1)
  let As := fun t => (r.2 t).2
  let r ← if backward then
      backward_sampling_pass key_backward (alGammatTilde Gammat Gammat_grad) Gamma_tilde_params
        (lastA bstar) xs log_ws ancestor_move true
    else
      backward_scanning_pass key_backward As (lastA bstar) xs (lastA log_ws) ancestor_move
  pure { xs := r.1, Bs := r.2, log_ws := log_ws }

end Verif.Model
