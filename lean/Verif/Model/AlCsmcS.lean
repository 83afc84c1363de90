import Verif.Model.AlCsmcF

/-!
# `gradient_csmc/al_csmc_s.py`: Particle-aMALA+

`T = n + 3` time steps (the backward sampling pass of the file needs three), `N + 1` particles in `ℝ^d`.
`jax.value_and_grad(Gamma_0)` and `jax.value_and_grad(Gamma_t, (0, 1))` are parameters of the model: the functions
`Gamma0`, `Gammat` and their gradients `Gamma0_grad`, `Gammat_grad0` (first argument) and `Gammat_grad1` (second
argument).
-/

namespace Verif.Model
open Verif

variable {m : Type → Type} [RandM m] {G : Type} {N n d : ℕ}

/-- `a[-2]` for an array of length at least two, e.g. `/repo/gradient_csmc/al_csmc_s.py:302-307`. -/
def last2A {α : Type} {n : ℕ} (a : Fin (n + 2) → α) : α := lastA (initA a)

/-- `jax.lax.scan(body, init, inputs, reverse=True)`, e.g. `/repo/gradient_csmc/al_csmc_s.py:328`: the carry is
threaded from the last entry to the first, the outputs are stacked at the positions of their inputs. -/
def scanRevM {m : Type → Type} [Monad m] {C I O : Type} (body : C → I → m (C × O)) {n : ℕ} (c : C)
    (inp : Fin n → I) : m (C × (Fin n → O)) := do
  let r ← scanM body c (rev inp)
  pure (r.1, rev r.2)

/-- `jax.grad(full_func)(x_star)`: `/repo/gradient_csmc/al_csmc_s.py:154-160`, also `atp_csmc_s.py:116-122`.  The
gradient of `Gamma_0(x[0]) + sum_t Gamma_t(x[t-1], x[t])` at `x[t]`: the term in which `x[t]` is the second argument,
plus, unless `t` is the last time, the term in which it is the first. -/
def fullGrad (Gamma0_grad : Vec d → Vec d) (Gammat_grad0 Gammat_grad1 : Vec d → Vec d → G → Vec d)
    (Gparams : Fin n → G) (x : Fin (n + 1) → Vec d) : Fin (n + 1) → Vec d :=
  let own := insert0 (Gamma0_grad (x 0)) (fun t => Gammat_grad1 (initA x t) (tailA x t) (Gparams t))
  let next := snocA (fun t => Gammat_grad0 (initA x t) (tailA x t) (Gparams t)) 0
  fun t => own t + next t

/-- `params_0`: `/repo/gradient_csmc/al_csmc_s.py:89, 189`. -/
structure AlsParams0 (d : ℕ) where
  delta : ℝ
  ell : ℝ
  u : Vec d

/-- The correction terms of the increments: `-sum((u - mean) ** 2, axis=-1) / ell`, e.g.
`/repo/gradient_csmc/al_csmc_s.py:99-101`. -/
noncomputable def alsCorrection (u mean : Vec d) (ell : ℝ) : ℝ := -sumSq (fun j => u j - mean j) / ell

/-- `x + 0.5 * delta * grad`, e.g. `/repo/gradient_csmc/al_csmc_s.py:95-97`. -/
noncomputable def alsMean (x : Vec d) (delta : ℝ) (grad : Vec d) : Vec d := fun j => x j + 0.5 * delta * grad j

/-- `Gamma_0_tilde`: `/repo/gradient_csmc/al_csmc_s.py:83-86`. -/
noncomputable def alsGamma0Tilde (Gamma0 : Vec d → ℝ) (Gamma0_grad : Vec d → Vec d) (x_0 : Vec d)
    (delta_0 ell_0 : ℝ) (u_0 : Vec d) : ℝ :=
  let mean := alsMean x_0 delta_0 (Gamma0_grad x_0)
  Gamma0 x_0 + alsCorrection u_0 mean ell_0

/-- `Gamma_1_tilde`: `/repo/gradient_csmc/al_csmc_s.py:88-104`. -/
noncomputable def alsGamma1Tilde (Gamma0_grad : Vec d → Vec d) (Gammat : Vec d → Vec d → G → ℝ)
    (Gammat_grad0 Gammat_grad1 : Vec d → Vec d → G → Vec d) (x_0 x_1 : Vec d) (params_0 : AlsParams0 d)
    (params_1 : AlParams G d) : ℝ :=
  let val := Gammat x_0 x_1 params_1.original
  let grad_0_1 := Gammat_grad0 x_0 x_1 params_1.original
  let grad_1_1 := Gammat_grad1 x_0 x_1 params_1.original
  let grad_0_0 := Gamma0_grad x_0
  let mean_0_1 := alsMean x_0 params_0.delta (grad_0_1 + grad_0_0)
  let mean_1_1 := alsMean x_1 params_1.delta grad_1_1
  let mean_0_0 := alsMean x_0 params_0.delta grad_0_0
  let correction_0_1 := alsCorrection params_0.u mean_0_1 params_0.ell
  let correction_1_1 := alsCorrection params_1.u mean_1_1 params_1.ell
  let correction_0_0 := alsCorrection params_0.u mean_0_0 params_0.ell
  let correction := correction_0_1 + correction_1_1 - correction_0_0
  val + correction

/-- `Gamma_t_tilde`: `/repo/gradient_csmc/al_csmc_s.py:106-122`. -/
noncomputable def alsGammatTilde (Gammat : Vec d → Vec d → G → ℝ)
    (Gammat_grad0 Gammat_grad1 : Vec d → Vec d → G → Vec d) (x_t_m_2 x_t_m_1 x_t : Vec d)
    (params_t_m_1 params_t : AlParams G d) : ℝ :=
  let val := Gammat x_t_m_1 x_t params_t.original
  let grad_t_m_1_t := Gammat_grad0 x_t_m_1 x_t params_t.original
  let grad_t_t := Gammat_grad1 x_t_m_1 x_t params_t.original
  let grad_t_m_1_t_m_1 := Gammat_grad1 x_t_m_2 x_t_m_1 params_t_m_1.original
  let mean_t_m_1_t := alsMean x_t_m_1 params_t_m_1.delta (grad_t_m_1_t + grad_t_m_1_t_m_1)
  let mean_t_t := alsMean x_t params_t.delta grad_t_t
  let mean_t_m_1_t_m_1 := alsMean x_t_m_1 params_t_m_1.delta grad_t_m_1_t_m_1
  let correction_t_m_1_t := alsCorrection params_t_m_1.u mean_t_m_1_t params_t_m_1.ell
  let correction_t_t := alsCorrection params_t.u mean_t_t params_t.ell
  let correction_t_m_1_t_m_1 := alsCorrection params_t_m_1.u mean_t_m_1_t_m_1 params_t_m_1.ell
  let correction := correction_t_m_1_t + correction_t_t - correction_t_m_1_t_m_1
  val + correction

/-- `G_0_tilde`: `/repo/gradient_csmc/al_csmc_s.py:128-132`. -/
noncomputable def alsG0Tilde (Gamma0 : Vec d → ℝ) (Gamma0_grad : Vec d → Vec d) (x_0 : Vec d)
    (delta_0 ell_0 : ℝ) (u_0 : Vec d) : ℝ :=
  let proposal_log_pdf := -sumSq (fun j => x_0 j - u_0 j) / ell_0
  let Gamma_val := alsGamma0Tilde Gamma0 Gamma0_grad x_0 delta_0 ell_0 u_0
  Gamma_val - proposal_log_pdf

/-- `G_1_tilde`: `/repo/gradient_csmc/al_csmc_s.py:134-139`. -/
noncomputable def alsG1Tilde (Gamma0_grad : Vec d → Vec d) (Gammat : Vec d → Vec d → G → ℝ)
    (Gammat_grad0 Gammat_grad1 : Vec d → Vec d → G → Vec d) (x_0 x_1 : Vec d) (params_0 : AlsParams0 d)
    (params_1 : AlParams G d) : ℝ :=
  let proposal_log_pdf := -sumSq (fun j => x_1 j - params_1.u j) / params_1.ell
  let Gamma_val := alsGamma1Tilde Gamma0_grad Gammat Gammat_grad0 Gammat_grad1 x_0 x_1 params_0 params_1
  Gamma_val - proposal_log_pdf

/-- `G_t_tilde`: `/repo/gradient_csmc/al_csmc_s.py:141-146`. -/
noncomputable def alsGtTilde (Gammat : Vec d → Vec d → G → ℝ)
    (Gammat_grad0 Gammat_grad1 : Vec d → Vec d → G → Vec d) (x_t_m_2 x_t_m_1 x_t : Vec d)
    (params_t_m_1 params_t : AlParams G d) : ℝ :=
  let proposal_log_pdf := -sumSq (fun j => x_t j - params_t.u j) / params_t.ell
  let Gamma_val := alsGammatTilde Gammat Gammat_grad0 Gammat_grad1 x_t_m_2 x_t_m_1 x_t params_t_m_1 params_t
  Gamma_val - proposal_log_pdf

/-- Inputs of the forward scan: `/repo/gradient_csmc/al_csmc_s.py:197, 220`. -/
structure AlsInp (G : Type) (N d : ℕ) where
  params_t_m_1 : AlParams G d
  params_t : AlParams G d
  x_t : Fin (N + 1) → Vec d
  bPrev : Fin (N + 1)
  bCur : Fin (N + 1)
  key : Key

/-- Carry `(w_t_m_1, x_t_m_1, x_t_m_2)` of the forward scan: `/repo/gradient_csmc/al_csmc_s.py:196`, also
`atp_csmc_s.py:242`. -/
structure AlsCarry (N d : ℕ) where
  w : Fin (N + 1) → ℝ
  x1 : Fin (N + 1) → Vec d
  x2 : Fin (N + 1) → Vec d

/-- `body` of the forward pass: `/repo/gradient_csmc/al_csmc_s.py:195-212`.  The saved values are
`(log_w_t, A_t, x_t_m_1)`. -/
noncomputable def alsBody (Gammat : Vec d → Vec d → G → ℝ)
    (Gammat_grad0 Gammat_grad1 : Vec d → Vec d → G → Vec d) (resampling : Resampling m N)
    (c : AlsCarry N d) (inp : AlsInp G N d) :
    m (AlsCarry N d × ((Fin (N + 1) → ℝ) × (Fin (N + 1) → Fin (N + 1)) × (Fin (N + 1) → Vec d))) := do
  let A_t ← resampling inp.key c.w inp.bPrev inp.bCur true
  let x_t_m_2 := take c.x2 A_t
  let x_t_m_1 := take c.x1 A_t
  let log_w_t : Fin (N + 1) → ℝ := fun i =>
    alsGtTilde Gammat Gammat_grad0 Gammat_grad1 (x_t_m_2 i) (x_t_m_1 i) (inp.x_t i) inp.params_t_m_1 inp.params_t
  let max_w := maxA log_w_t
  let log_w_t : Fin (N + 1) → ℝ := fun i => log_w_t i - max_w
  let w_t := normalizeW log_w_t
  pure (⟨w_t, inp.x_t, x_t_m_1⟩, (log_w_t, A_t, x_t_m_1))

/-- What the forward pass hands to the backward passes: `/repo/gradient_csmc/al_csmc_s.py:228-242`, also
`atp_csmc_s.py:279-296`. -/
structure AlsFwd (N n d : ℕ) where
  xs : Fin (n + 3) → Fin (N + 1) → Vec d
  log_ws : Fin (n + 3) → Fin (N + 1) → ℝ
  As : Fin (n + 2) → Fin (N + 1) → Fin (N + 1)
  xs_m_1 : Fin (n + 2) → Fin (N + 1) → Vec d

/-- `Gamma_tilde_params`: `/repo/gradient_csmc/al_csmc_s.py:216`. -/
def alsParams (deltas ells : Fin (n + 1) → ℝ) (aux_vars : Fin (n + 1) → Vec d) (Gparams : Fin n → G) :
    Fin n → AlParams G d := fun t =>
  { delta := tailA deltas t, ell := tailA ells t, u := tailA aux_vars t, original := Gparams t }

/-- `Gamma_tilde_params_1`: `/repo/gradient_csmc/al_csmc_s.py:187-189`. -/
def alsParams1 (deltas ells : Fin (n + 2) → ℝ) (aux_vars : Fin (n + 2) → Vec d) (Gparams : Fin (n + 1) → G) :
    AlsParams0 d × AlParams G d :=
  ({ delta := deltas 0, ell := ells 0, u := aux_vars 0 },
    { delta := deltas 1, ell := ells 1, u := aux_vars 1, original := Gparams 0 })

/-- Inputs of the forward scan: `/repo/gradient_csmc/al_csmc_s.py:216-220`. -/
def alsInputs (key : Key) (params : Fin (n + 2) → AlParams G d) (xs : Fin (n + 3) → Fin (N + 1) → Vec d)
    (bstar : Fin (n + 3) → Fin (N + 1)) : Fin (n + 1) → AlsInp G N d := fun t =>
  { params_t_m_1 := initA params t
    params_t := tailA params t
    x_t := tailA (tailA xs) t
    bPrev := tailA (initA bstar) t
    bCur := tailA (tailA bstar) t
    key := tailA (keysResampling key (n + 2)) t }

/-- Initialisation and forward pass, given the particles: `/repo/gradient_csmc/al_csmc_s.py:172-232`. -/
noncomputable def alsForward (key : Key) (bstar : Fin (n + 3) → Fin (N + 1))
    (Gamma0 : Vec d → ℝ) (Gamma0_grad : Vec d → Vec d) (Gammat : Vec d → Vec d → G → ℝ)
    (Gammat_grad0 Gammat_grad1 : Vec d → Vec d → G → Vec d) (Gparams : Fin (n + 2) → G)
    (ells deltas : Fin (n + 3) → ℝ) (resampling : Resampling m N) (aux_vars : Fin (n + 3) → Vec d)
    (xs : Fin (n + 3) → Fin (N + 1) → Vec d) : m (AlsFwd N n d) := do
  let log_w0 : Fin (N + 1) → ℝ := fun i =>
    alsG0Tilde Gamma0 Gamma0_grad (xs 0 i) (deltas 0) (ells 0) (aux_vars 0)
  let max_w0 := maxA log_w0
  let log_w0 : Fin (N + 1) → ℝ := fun i => log_w0 i - max_w0
  let w0 := normalizeW log_w0
  let A_0 ← resampling (keysResampling key (n + 2) 0) w0 (bstar 0) (bstar 1) true
  let x0 := take (xs 0) A_0
  let p1 := alsParams1 deltas ells aux_vars Gparams
  let log_w1 : Fin (N + 1) → ℝ := fun i =>
    alsG1Tilde Gamma0_grad Gammat Gammat_grad0 Gammat_grad1 (x0 i) (xs 1 i) p1.1 p1.2
  let w1 := normalizeW log_w1
  let params := alsParams deltas ells aux_vars Gparams
  let r ← scanM (alsBody Gammat Gammat_grad0 Gammat_grad1 resampling) ⟨w1, xs 1, x0⟩
    (alsInputs key params xs bstar)
  let log_ws := insert0 log_w1 (fun t => (r.2 t).1)
  let log_ws := insert0 log_w0 log_ws
  let As := insert0 A_0 (fun t => (r.2 t).2.1)
  let xs_m_1 := insert0 (take x0 (As 1)) (fun t => (r.2 t).2.2)
  pure { xs := xs, log_ws := log_ws, As := As, xs_m_1 := xs_m_1 }

/-- Inputs `(op_key, xs_t_m_1, xs_t, log_w_t, params_t, params_t_p_1, params_t_p_2)` of the backward scan:
`/repo/gradient_csmc/al_csmc_s.py:311, 324`. -/
structure AlsBsInp (P : Type) (N d : ℕ) where
  key : Key
  xs_t_m_1 : Fin (N + 1) → Vec d
  xs_t : Fin (N + 1) → Vec d
  log_w_t : Fin (N + 1) → ℝ
  params_t : P
  params_t_p_1 : P
  params_t_p_2 : P

/-- `body` of the backward sampling pass: `/repo/gradient_csmc/al_csmc_s.py:309-318`, also `atp_csmc_s.py:366-375`.
The carry is `(x_t_p_1, x_t_p_2)`; the counter `t`, which nothing reads, is left out. -/
noncomputable def alsBsBody {P : Type} (Gamma_tilde_t : Vec d → Vec d → Vec d → P → P → ℝ) (c : Vec d × Vec d)
    (inp : AlsBsInp P N d) : m ((Vec d × Vec d) × (Vec d × Fin (N + 1))) := do
  let x_t_p_1 := c.1
  let x_t_p_2 := c.2
  let Gamma_log_w_t_p_2 : Fin (N + 1) → ℝ := fun i =>
    Gamma_tilde_t (inp.xs_t i) x_t_p_1 x_t_p_2 inp.params_t_p_1 inp.params_t_p_2
  let Gamma_log_w_t_p_1 : Fin (N + 1) → ℝ := fun i =>
    Gamma_tilde_t (inp.xs_t_m_1 i) (inp.xs_t i) x_t_p_1 inp.params_t inp.params_t_p_1
  let w_t := normalizeW (fun i => Gamma_log_w_t_p_2 i + Gamma_log_w_t_p_1 i + inp.log_w_t i)
  let B_t ← choice inp.key w_t
  let x_t := inp.xs_t B_t
  pure ((x_t, x_t_p_1), (x_t, B_t))

/-- `backward_sampling_pass`: `/repo/gradient_csmc/al_csmc_s.py:246-351`, also `atp_csmc_s.py:303-408`. -/
noncomputable def als_backward_sampling_pass {P0 P P1 : Type} (key : Key)
    (Gamma_tilde_t : Vec d → Vec d → Vec d → P → P → ℝ) (Gamma_params_t : Fin (n + 2) → P)
    (Gamma_tilde_1 : Vec d → Vec d → P0 → P1 → ℝ) (Gamma_params_1 : P0 × P1) (b_star_T : Fin (N + 1))
    (xs : Fin (n + 3) → Fin (N + 1) → Vec d) (xs_m_1 : Fin (n + 2) → Fin (N + 1) → Vec d)
    (log_ws : Fin (n + 3) → Fin (N + 1) → ℝ) (ancestor_move : AncestorMove m N) :
    m ((Fin (n + 3) → Vec d) × (Fin (n + 3) → Fin (N + 1))) := do
  let keys := splitKey key (n + 3)
  let r ← ancestor_move (lastA keys) (normalizeW (lastA log_ws)) b_star_T
  let B_T := r.1
  let x_T := lastA xs B_T
  let Gamma_params_T := lastA Gamma_params_t
  let Gamma_params_T_m_1 := last2A Gamma_params_t
  let Gamma_log_w_T_m_1 : Fin (N + 1) → ℝ := fun i =>
    Gamma_tilde_t (last2A xs_m_1 i) (last2A xs i) x_T Gamma_params_T_m_1 Gamma_params_T
  let w_T_m_1 := normalizeW (fun i => Gamma_log_w_T_m_1 i + last2A log_ws i)
  let B_T_m_1 ← choice (last2A keys) w_T_m_1
  let x_T_m_1 := last2A xs B_T_m_1
  let inps : Fin n → AlsBsInp P N d := fun t =>
    { key := tailA (initA (initA keys)) t
      xs_t_m_1 := initA (initA xs_m_1) t
      xs_t := tailA (initA (initA xs)) t
      log_w_t := tailA (initA (initA log_ws)) t
      params_t := initA (initA Gamma_params_t) t
      params_t_p_1 := tailA (initA Gamma_params_t) t
      params_t_p_2 := tailA (tailA Gamma_params_t) t }
  let r ← scanRevM (alsBsBody Gamma_tilde_t) (x_T_m_1, x_T) inps
  let xs_out := snocA (fun t => (r.2 t).1) x_T_m_1
  let xs_out := snocA xs_out x_T
  let Bs := snocA (fun t => (r.2 t).2) B_T_m_1
  let Bs := snocA Bs B_T
  let Gamma_log_w_0 : Fin (N + 1) → ℝ := fun i =>
    Gamma_tilde_1 (xs 0 i) (xs_out 0) Gamma_params_1.1 Gamma_params_1.2
  let Gamma_log_w_1 : Fin (N + 1) → ℝ := fun i =>
    Gamma_tilde_t (xs 0 i) (xs_out 0) (xs_out 1) (Gamma_params_t 0) (Gamma_params_t 1)
  let w_0 := normalizeW (fun i => Gamma_log_w_0 i + Gamma_log_w_1 i + log_ws 0 i)
  let B_0 ← choice (keys 0) w_0
  pure (insert0 (xs 0 B_0) xs_out, insert0 B_0 Bs)

/-- `kernel`: `/repo/gradient_csmc/al_csmc_s.py:15-243`. -/
noncomputable def als_kernel (key : Key) (xstar : Fin (n + 3) → Vec d) (bstar : Fin (n + 3) → Fin (N + 1))
    (Gamma0 : Vec d → ℝ) (Gamma0_grad : Vec d → Vec d) (Gammat : Vec d → Vec d → G → ℝ)
    (Gammat_grad0 Gammat_grad1 : Vec d → Vec d → G → Vec d) (Gparams : Fin (n + 2) → G)
    (ells deltas : Fin (n + 3) → ℝ) (resampling : Resampling m N) (ancestor_move : AncestorMove m N)
    (backward : Bool) : m (KOut (Vec d) N (n + 2)) := do
  let keys := splitKey key (n + 5)
  let key_proposals := keys 0
  let key_aux := keys 1
  let key_backward := keys 2
  let aux_std_devs := auxStd ells
  let grad_log_w_star := fullGrad Gamma0_grad Gammat_grad0 Gammat_grad1 Gparams xstar
  let eps_aux ← normal2 key_aux (n + 3) d
  let aux_vars : Fin (n + 3) → Vec d := fun t j =>
    xstar t j + 0.5 * deltas t * grad_log_w_star t j + aux_std_devs t * eps_aux t j
  let eps_proposals ← normal3 key_proposals (n + 3) (N + 1) d
  let xs := auxParticles aux_vars aux_std_devs eps_proposals bstar xstar
  let F ← alsForward key bstar Gamma0 Gamma0_grad Gammat Gammat_grad0 Gammat_grad1 Gparams ells deltas resampling
    aux_vars xs
  let r ← if backward then
      als_backward_sampling_pass key_backward (alsGammatTilde Gammat Gammat_grad0 Gammat_grad1)
        (alsParams deltas ells aux_vars Gparams) (alsGamma1Tilde Gamma0_grad Gammat Gammat_grad0 Gammat_grad1)
        (alsParams1 deltas ells aux_vars Gparams) (lastA bstar) F.xs F.xs_m_1 F.log_ws ancestor_move
    else
      backward_scanning_pass key_backward F.As (lastA bstar) F.xs (lastA F.log_ws) ancestor_move
  pure { xs := r.1, Bs := r.2, log_ws := F.log_ws }

end Verif.Model
