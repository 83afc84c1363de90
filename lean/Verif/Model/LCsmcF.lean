import Verif.Model.AlCsmcF

/-!
# `gradient_csmc/l_csmc_f.py`: Particle-MALA

`jax.grad(Gamma_0, 0)` and `jax.grad(Gamma_t, 1)` are parameters `Gamma0_grad`, `Gammat_grad` of the model.
-/

namespace Verif.Model
open Verif

variable {m : Type → Type} [RandM m] {G : Type} {N n d : ℕ}

/-- `H_phi`: `/repo/gradient_csmc/l_csmc_f.py:74-79` (`N` is the argument of `kernel`). -/
noncomputable def lHphi (N : ℕ) (Gamma_grad : Vec d) (Gamma_val delta_t ell_t : ℝ) (x_bar_t x_t : Vec d) : ℝ :=
  let phi : Vec d := fun j => 0.5 * delta_t * Gamma_grad j
  let inner := ∑ j, (x_bar_t j - x_t j) * phi j
  let phi_norm_sq := sumSq phi
  let log_H_phi := (2 * inner - (N : ℝ) / ((N : ℝ) + 1) * phi_norm_sq) / ell_t
  Gamma_val + log_H_phi

/-- `Gamma_0_tilde`: `/repo/gradient_csmc/l_csmc_f.py:81-86`. -/
noncomputable def lGamma0Tilde (N : ℕ) (Gamma0 : Vec d → ℝ) (Gamma0_grad : Vec d → Vec d)
    (x_0 x_bar_0 : Vec d) (delta_0 ell_0 : ℝ) : ℝ :=
  lHphi N (Gamma0_grad x_0) (Gamma0 x_0) delta_0 ell_0 x_bar_0 x_0

/-- `params` of `Gamma_t_tilde`: `/repo/gradient_csmc/l_csmc_f.py:89, 153`. -/
structure LParams (G : Type) (d : ℕ) where
  x_bar : Vec d
  delta : ℝ
  ell : ℝ
  original : G

/-- `Gamma_t_tilde`: `/repo/gradient_csmc/l_csmc_f.py:88-96`. -/
noncomputable def lGammatTilde (N : ℕ) (Gammat : Vec d → Vec d → G → ℝ)
    (Gammat_grad : Vec d → Vec d → G → Vec d) (x_t_m_1 x_t : Vec d) (params : LParams G d) : ℝ :=
  lHphi N (Gammat_grad x_t_m_1 x_t params.original) (Gammat x_t_m_1 x_t params.original) params.delta
    params.ell params.x_bar x_t

/-- `x_bar = jnp.mean(xs, axis=1)` at one time step: `/repo/gradient_csmc/l_csmc_f.py:120`. -/
noncomputable def meanP (Xs : Fin (N + 1) → Vec d) : Vec d := fun j => (∑ i, Xs i j) / ((N : ℝ) + 1)

/-- `body` of the forward pass: `/repo/gradient_csmc/l_csmc_f.py:134-150`. -/
noncomputable def lBody (Gammat : Vec d → Vec d → G → ℝ)
    (Gammat_grad : Vec d → Vec d → G → Vec d) (resampling : Resampling m N)
    (c : (Fin (N + 1) → ℝ) × (Fin (N + 1) → Vec d)) (inp : AuxInp (LParams G d) (Vec d) N) :
    m (((Fin (N + 1) → ℝ) × (Fin (N + 1) → Vec d)) × ((Fin (N + 1) → ℝ) × (Fin (N + 1) → Fin (N + 1)))) := do
  let w_prev := c.1
  let x_prev := c.2
  let A ← resampling inp.key w_prev inp.bPrev inp.bCur true
  let x_prev := take x_prev A
  let log_w : Fin (N + 1) → ℝ := fun i =>
    lGammatTilde N Gammat Gammat_grad (x_prev i) (inp.x_t i) inp.params
  let max_w := maxA log_w
  let log_w : Fin (N + 1) → ℝ := fun i => log_w i - max_w
  let w := normalizeW log_w
  pure ((w, inp.x_t), (log_w, A))

/-- `kernel`: `/repo/gradient_csmc/l_csmc_f.py:14-170`. -/
noncomputable def l_kernel (key : Key) (xstar : Fin (n + 1) → Vec d) (bstar : Fin (n + 1) → Fin (N + 1))
    (Gamma0 : Vec d → ℝ) (Gamma0_grad : Vec d → Vec d) (Gammat : Vec d → Vec d → G → ℝ)
    (Gammat_grad : Vec d → Vec d → G → Vec d) (Gparams : Fin n → G)
    (ells deltas : Fin (n + 1) → ℝ) (resampling : Resampling m N) (ancestor_move : AncestorMove m N)
    (backward : Bool) : m (KOut (Vec d) N n) := do
  let keys := splitKey key (n + 3)
  let key_proposals := keys 0
  let key_aux := keys 1
  let key_backward := keys 2
  let aux_std_devs := auxStd ells
  let eps_aux ← normal2 key_aux (n + 1) d
  let aux_vars := auxVars Gamma0_grad Gammat_grad Gparams deltas aux_std_devs xstar eps_aux
  let eps_proposals ← normal3 key_proposals (n + 1) (N + 1) d
  let xs := auxParticles aux_vars aux_std_devs eps_proposals bstar xstar
  let x_bar : Fin (n + 1) → Vec d := fun t => meanP (xs t)
  let log_w0 : Fin (N + 1) → ℝ := fun i =>
    lGamma0Tilde N Gamma0 Gamma0_grad (xs 0 i) (x_bar 0) (deltas 0) (ells 0)
  let max_w0 := maxA log_w0
  let log_w0 : Fin (N + 1) → ℝ := fun i => log_w0 i - max_w0
  let w0 := normalizeW log_w0
  let Gamma_tilde_params : Fin n → LParams G d := fun t =>
    { x_bar := tailA x_bar t, delta := tailA deltas t, ell := tailA ells t, original := Gparams t }
  let r ← scanM (lBody Gammat Gammat_grad resampling) (w0, xs 0)
    (auxInputs key Gamma_tilde_params xs bstar)
  let log_ws := insert0 log_w0 (fun t => (r.2 t).1)
  let As := fun t => (r.2 t).2
  let r ← if backward then
      backward_sampling_pass key_backward Gammat Gparams (lastA bstar) xs log_ws ancestor_move true
    else
      backward_scanning_pass key_backward As (lastA bstar) xs (lastA log_ws) ancestor_move
  pure { xs := r.1, Bs := r.2, log_ws := log_ws }

end Verif.Model
