import Verif.Model.Csmc

/-!
# `gradient_csmc/rw_csmc.py`: Particle-RWM

`T = n + 1` time steps, `N + 1` particles in `ℝ^d`.
-/

namespace Verif.Model
open Verif

variable {m : Type → Type} [RandM m] {G : Type} {N n d : ℕ}

/-- `d`-dimensional states. -/
abbrev Vec (d : ℕ) := Fin d → ℝ

/-- `keys_resampling = keys[3:]` of `keys = split(key, T + 2)`: `/repo/gradient_csmc/rw_csmc.py:55-56`,
also `al_csmc_f.py:59-60`, `l_csmc_f.py:59-60`. -/
def keysResampling (key : Key) (n : ℕ) : Fin n → Key := fun t => splitKey key (n + 3) (t.addNat 3)

/-- Inputs of the forward scans of the kernels whose particles are drawn in advance:
`/repo/gradient_csmc/rw_csmc.py:108` (`Gamma_params, xs[1:], b_star[:-1], b_star[1:], keys_resampling`),
also `al_csmc_f.py:158`, `l_csmc_f.py:154`. -/
structure AuxInp (P X : Type) (N : ℕ) where
  params : P
  x_t : Fin (N + 1) → X
  bPrev : Fin (N + 1)
  bCur : Fin (N + 1)
  key : Key

/-- The inputs of the scan. -/
def auxInputs {P X : Type} (key : Key) (params : Fin n → P) (xs : Fin (n + 1) → Fin (N + 1) → X)
    (bstar : Fin (n + 1) → Fin (N + 1)) : Fin n → AuxInp P X N := fun t =>
  { params := params t
    x_t := tailA xs t
    bPrev := initA bstar t
    bCur := tailA bstar t
    key := keysResampling key n t }

/-- `aux_std_devs = sqrt(0.5 * ells)`: `/repo/gradient_csmc/rw_csmc.py:59`, also `al_csmc_f.py:63`,
`l_csmc_f.py:63`. -/
noncomputable def auxStd (ells : Fin (n + 1) → ℝ) (t : Fin (n + 1)) : ℝ := Real.sqrt (0.5 * ells t)

/-- The proposals around the auxiliary variables, with the reference trajectory put back:
`/repo/gradient_csmc/rw_csmc.py:70-76`, also `al_csmc_f.py:119-124`, `l_csmc_f.py:112-117`. -/
noncomputable def auxParticles (aux_vars : Fin (n + 1) → Vec d) (aux_std_devs : Fin (n + 1) → ℝ)
    (eps_xs : Fin (n + 1) → Fin (N + 1) → Vec d) (bstar : Fin (n + 1) → Fin (N + 1))
    (xstar : Fin (n + 1) → Vec d) : Fin (n + 1) → Fin (N + 1) → Vec d :=
  let xs : Fin (n + 1) → Fin (N + 1) → Vec d := fun t i j => aux_vars t j + aux_std_devs t * eps_xs t i j
  fun t => atSet (xs t) (bstar t) (xstar t)

/-- `body` of the forward pass of `rw_csmc.kernel`: `/repo/gradient_csmc/rw_csmc.py:90-105`.
The carry is `(w, x)`, the saved values are `(log_w, A)`. -/
noncomputable def rwBody {X : Type} (Gammat : X → X → G → ℝ) (resampling : Resampling m N)
    (c : (Fin (N + 1) → ℝ) × (Fin (N + 1) → X)) (inp : AuxInp G X N) :
    m (((Fin (N + 1) → ℝ) × (Fin (N + 1) → X)) × ((Fin (N + 1) → ℝ) × (Fin (N + 1) → Fin (N + 1)))) := do
  let w_prev := c.1
  let x_prev := c.2
  let A ← resampling inp.key w_prev inp.bPrev inp.bCur true
  let x_prev := take x_prev A
  let log_w : Fin (N + 1) → ℝ := fun i => Gammat (x_prev i) (inp.x_t i) inp.params
  let log_w := normalizeLog log_w
  let w : Fin (N + 1) → ℝ := fun i => Real.exp (log_w i)
  pure ((w, inp.x_t), (log_w, A))

/-- The part of `rw_csmc.kernel` before the check for non-finite values:
`/repo/gradient_csmc/rw_csmc.py:54-123`. -/
noncomputable def rw_core (key : Key) (xstar : Fin (n + 1) → Vec d) (bstar : Fin (n + 1) → Fin (N + 1))
    (Gamma0 : Vec d → ℝ) (Gammat : Vec d → Vec d → G → ℝ) (Gparams : Fin n → G)
    (ells : Fin (n + 1) → ℝ) (resampling : Resampling m N) (ancestor_move : AncestorMove m N)
    (backward : Bool) : m (KOut (Vec d) N n) := do
  let keys := splitKey key (n + 3)
  let key_proposals := keys 0
  let key_aux := keys 1
  let key_backward := keys 2
  let aux_std_devs := auxStd ells
  let eps_aux ← normal2 key_aux (n + 1) d
  let aux_vars : Fin (n + 1) → Vec d := fun t j => xstar t j + eps_aux t j * aux_std_devs t
  let eps_xs ← normal3 key_proposals (n + 1) (N + 1) d
  let xs := auxParticles aux_vars aux_std_devs eps_xs bstar xstar
  let log_w0 : Fin (N + 1) → ℝ := fun i => Gamma0 (xs 0 i)
  let max_w0 := maxA log_w0
  let log_w0 : Fin (N + 1) → ℝ := fun i => log_w0 i - max_w0
  let w0 := normalizeW log_w0
  let r ← scanM (rwBody Gammat resampling) (w0, xs 0) (auxInputs key Gparams xs bstar)
  let log_ws := insert0 log_w0 (fun t => (r.2 t).1)
  let As := fun t => (r.2 t).2
  let r ← if backward then
      backward_sampling_pass key_backward Gammat Gparams (lastA bstar) xs log_ws ancestor_move true
    else
      backward_scanning_pass key_backward As (lastA bstar) xs (lastA log_ws) ancestor_move
  pure { xs := r.1, Bs := r.2, log_ws := log_ws }

/-- The check for non-finite values at the end of `rw_csmc.kernel`: `/repo/gradient_csmc/rw_csmc.py:125-127`.
`isfinite` stands for `jnp.isfinite`: the model computes with real numbers, which are all finite, so the
predicate is a parameter. -/
def rwGuard {X : Type} (isfinite : X → Bool) (xstar : Fin (n + 1) → X)
    (bstar : Fin (n + 1) → Fin (N + 1)) (r : KOut X N n) : KOut X N n :=
  let is_any_nan := !decide (∀ t, isfinite (r.xs t) = true)
  { xs := if is_any_nan then xstar else r.xs
    Bs := if is_any_nan then bstar else r.Bs
    log_ws := r.log_ws }

/-- `kernel`: `/repo/gradient_csmc/rw_csmc.py:14-128`. -/
noncomputable def rw_kernel (isfinite : Vec d → Bool) (key : Key) (xstar : Fin (n + 1) → Vec d)
    (bstar : Fin (n + 1) → Fin (N + 1))
    (Gamma0 : Vec d → ℝ) (Gammat : Vec d → Vec d → G → ℝ) (Gparams : Fin n → G)
    (ells : Fin (n + 1) → ℝ) (resampling : Resampling m N) (ancestor_move : AncestorMove m N)
    (backward : Bool) : m (KOut (Vec d) N n) := do
  let r ← rw_core key xstar bstar Gamma0 Gammat Gparams ells resampling ancestor_move backward
  pure (rwGuard isfinite xstar bstar r)

end Verif.Model
