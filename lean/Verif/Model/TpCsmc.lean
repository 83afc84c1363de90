import Verif.Model.AtpCsmcF
import Verif.Model.LCsmcF

/-!
# `gradient_csmc/utils/marginalisation.py` and `gradient_csmc/tp_csmc.py`: Particle-mGRAD
-/

namespace Verif.Model
open Verif Matrix

variable {m : Type → Type} [RandM m] {MP RP : Type} {N n d : ℕ}

/-- `get_log_H(xs, ds, B, C_inv, E)(x, d, phi)`: `/repo/gradient_csmc/utils/marginalisation.py:8-33` (finite values; a
one-dimensional `ds` is repeated: the constant family). -/
noncomputable def get_log_H (xs ds : Fin (N + 1) → Vec d) (B C_inv E : Mat d d) (x dd phi : Vec d) : ℝ :=
  let x_bar := meanP xs
  let d_bar := meanP ds
  let Kappa := C_inv * B * E
  let Nu := Kappaᵀ * B * E
  let G := Kappa * solvePos (E + (N : ℝ) • Nu) Kappaᵀ
  let x_d := x - dd
  let B_x_phi := B *ᵥ (x + phi)
  let term_1 := -(x_d ⬝ᵥ ((C_inv + G) *ᵥ x_d))
  let term_2 := N * (B_x_phi ⬝ᵥ ((C_inv - (N : ℝ) • G) *ᵥ B_x_phi))
  let term_3 := 2 * ((N : ℝ) + 1) * ((x_bar - d_bar) ⬝ᵥ (G *ᵥ x_d - (C_inv - (N : ℝ) • G) *ᵥ B_x_phi))
  let term_4 := 2 * (x_d ⬝ᵥ ((C_inv - (N : ℝ) • G) *ᵥ B_x_phi))
  (-0.5 : ℝ) * (term_1 + term_2 + term_3 + term_4)

/-- `get_log_H_bis(xs, ds, K, K_inv, delta)(x, d, phi)`: `/repo/gradient_csmc/tp_csmc.py:192-217` (finite values). -/
noncomputable def get_log_H_bis (xs ds : Fin (N + 1) → Vec d) (K K_inv : Mat d d) (delta : ℝ) (x dd phi : Vec d) : ℝ :=
  let x_bar := meanP xs
  let d_bar := meanP ds
  let x_d_bar := x_bar - d_bar
  let G := (1 / delta) • ((2 : ℝ) • solvePos (1 + (N : ℝ) • K) (1 : Mat d d))
  let x_d := x - dd
  let term_1 := -(x_d ⬝ᵥ (((2 / delta) • K_inv + G) *ᵥ x_d))
  let term_2 := N * ((K *ᵥ (x + phi)) ⬝ᵥ (G *ᵥ (x + phi)))
  let term_3 := -2 * ((N : ℝ) + 1) * (x_d_bar ⬝ᵥ (G *ᵥ (dd + phi)))
  let term_4 := 2 * (x_d ⬝ᵥ (G *ᵥ (x + phi)))
  (-0.5 : ℝ) * (term_1 + term_2 + term_3 + term_4)

/-- `params` of `Mt_rvs` and `Mt_logpdf`: `/repo/gradient_csmc/tp_csmc.py:142, 150, 176`. -/
structure TpMParams (MP RP : Type) (d : ℕ) where
  u : Vec d
  K : Mat d d
  chol : Mat d d
  K_inv : Mat d d
  ell : ℝ
  delta : ℝ
  mu : MP
  rt : RP

/-- `params` of `Gamma_t`: `/repo/gradient_csmc/tp_csmc.py:168, 178`. -/
structure TpGParams (MP RP : Type) (d : ℕ) where
  inv_chol_Q : Mat d d
  mu : MP
  rt : RP

/-- `M0_rvs`: `/repo/gradient_csmc/tp_csmc.py:127-131`. -/
def tpM0_rvs (key : Key) (N : ℕ) (mu0 u : Vec d) (K chol : Mat d d) : m (Fin N → Vec d) := do
  let mean_0 := mu0 + K *ᵥ (u - mu0)
  let eps ← normal2 key N d
  pure (fun i => mean_0 + chol *ᵥ eps i)

/-- `M0_logpdf`: `/repo/gradient_csmc/tp_csmc.py:133-139`. -/
noncomputable def tpM0_logpdf (mu0 : Vec d) (r0_grad : Vec d → Vec d) (K K_inv : Mat d d) (ell delta : ℝ)
    (x : Fin (N + 1) → Vec d) (i : Fin (N + 1)) : ℝ :=
  let ds := mu0 - K *ᵥ mu0
  let log_phi_func := get_log_H_bis x (fun _ => ds) K K_inv ell
  let out := log_phi_func (x i) ds (fun j => 0.5 * delta * r0_grad (x i) j);
  -out

/-- `Mt_rvs`: `/repo/gradient_csmc/tp_csmc.py:141-147`. -/
def tpMt_rvs (mu : Vec d → MP → Vec d) (key : Key) {N : ℕ} (x_prev : Fin N → Vec d) (params : TpMParams MP RP d) :
    m (Fin N → Vec d) := do
  let mean_prior : Fin N → Vec d := fun i => mu (x_prev i) params.mu
  let mean_t : Fin N → Vec d := fun i => mean_prior i + params.K *ᵥ (params.u - mean_prior i)
  let eps ← normal2 key N d
  pure (fun i => mean_t i + params.chol *ᵥ eps i)

/-- `Mt_logpdf`: `/repo/gradient_csmc/tp_csmc.py:149-159`. -/
noncomputable def tpMt_logpdf (mu : Vec d → MP → Vec d) (rt_grad : Vec d → Vec d → RP → Vec d)
    (x_prev x : Fin (N + 1) → Vec d) (params : TpMParams MP RP d) (i : Fin (N + 1)) : ℝ :=
  let mean_prior : Fin (N + 1) → Vec d := fun i => mu (x_prev i) params.mu
  let ds : Fin (N + 1) → Vec d := fun i => mean_prior i - params.K *ᵥ mean_prior i
  let log_phi_func := get_log_H_bis x ds params.K params.K_inv params.ell
  let out := log_phi_func (x i) (ds i) (fun j => 0.5 * params.delta * rt_grad (x_prev i) (x i) params.rt j);
  -out

/-- `Gamma_0`: `/repo/gradient_csmc/tp_csmc.py:161-165`. -/
noncomputable def tpGamma_0 (mu0 : Vec d) (inv_chol_P0 : Mat d d) (r0 : Vec d → ℝ) (x : Vec d) : ℝ :=
  let out := mvn_logpdf x mu0 0 (some inv_chol_P0) false
  out + r0 x

/-- `Gamma_t`: `/repo/gradient_csmc/tp_csmc.py:167-174`. -/
noncomputable def tpGamma_t (mu : Vec d → MP → Vec d) (rt : Vec d → Vec d → RP → ℝ) (x_prev x : Vec d)
    (params : TpGParams MP RP d) : ℝ :=
  let out := mvn_logpdf x (mu x_prev params.mu) 0 (some params.inv_chol_Q) false
  out + rt x_prev x params.rt

/-- `kernel` of `tp_csmc.get_kernel`: `/repo/gradient_csmc/tp_csmc.py:73-187`. -/
noncomputable def tp_csmc_kernel (svd : Mat d d → SvdOut d) (M : GaussModel MP RP n d) (key : Key)
    (xstar : Fin (n + 1) → Vec d) (bstar : Fin (n + 1) → Fin (N + 1)) (ells deltas : Fin (n + 1) → ℝ)
    (resampling : Resampling m N) (ancestor_move : AncestorMove m N) (backward : Bool) : m (KOut (Vec d) N n) := do
  let prop := make_proposal svd M ells
  let Ks := fun t => (prop t).K_1 * (prop t).K_2
  let keys := splitKey key 2
  let key_csmc := keys 0
  let key_aux := keys 1
  let aux_std_devs := auxStd ells
  let eps_aux ← normal2 key_aux (n + 1) d
  let aux_vars := auxVars M.r0_grad M.rt_grad M.rt_params deltas aux_std_devs xstar eps_aux
  let inv_chol_P0 := invChol M.P0
  let inv_chol_Qs := fun t => invChol (M.Qs t)
  let fk : FK m (Vec d) (TpMParams MP RP d) (TpGParams MP RP d) N :=
    { M0_rvs := fun key => tpM0_rvs key (N + 1) M.mu0 (aux_vars 0) (Ks 0) (prop 0).chol
      M0_logpdf := tpM0_logpdf M.mu0 M.r0_grad (Ks 0) (prop 0).K_inv (ells 0) (deltas 0)
      Gamma0 := tpGamma_0 M.mu0 inv_chol_P0 M.r0
      Mt_rvs := fun key x_prev params => tpMt_rvs M.mu key x_prev params
      Mt_logpdf := tpMt_logpdf M.mu M.rt_grad
      Gammat := tpGamma_t M.mu M.rt }
  let Mt_params : Fin n → TpMParams MP RP d := fun t =>
    ⟨tailA aux_vars t, tailA Ks t, (tailA prop t).chol, (tailA prop t).K_inv, tailA ells t, tailA deltas t,
      M.mu_params t, M.rt_params t⟩
  let Gamma_t_params : Fin n → TpGParams MP RP d := fun t => ⟨inv_chol_Qs t, M.mu_params t, M.rt_params t⟩
  csmc_kernel key_csmc xstar bstar fk Mt_params Gamma_t_params resampling ancestor_move backward true

end Verif.Model
