import Verif.Model.Resampling
import Verif.Model.Common

/-!
# `gradient_csmc/csmc.py`

`T = n + 1` time steps, `N + 1` particles with values in `X`.  Particle arrays have shape
`Fin (N + 1) → X`, the outputs with a time axis `Fin (n + 1) → _`.
-/

namespace Verif.Model
open Verif

variable {m : Type → Type} [RandM m]

/-- Type of the conditional resampling functions (`multinomial`, `killing`): key, weights, `i`, `j`,
`conditional`. -/
abbrev Resampling (m : Type → Type) (N : ℕ) :=
  Key → (Fin (N + 1) → ℝ) → Fin (N + 1) → Fin (N + 1) → Bool → m (Fin (N + 1) → Fin (N + 1))

/-- Type of the ancestor moves (`barker_move`, `force_move`): key, weights, current index. -/
abbrev AncestorMove (m : Type → Type) (N : ℕ) :=
  Key → (Fin (N + 1) → ℝ) → Fin (N + 1) → m (Fin (N + 1) × ℝ)

/-- The arguments `M_0`, `Gamma_0`, `M_t`, `Gamma_t` of `csmc.kernel` (`/repo/gradient_csmc/csmc.py:14-47`),
without the parameters scanned over time.

The log-densities of the proposals act on whole particle arrays, because `tp_csmc.py` passes functions
which are not elementwise.  `Gamma_0` and `Gamma_t` are elementwise: the backward pass calls `Gamma_t`
with an array of particles at time `t-1` and a single particle at time `t`. -/
structure FK (m : Type → Type) (X P G : Type) (N : ℕ) where
  /-- `M_0_rvs(key, N + 1)` -/
  M0_rvs : Key → m (Fin (N + 1) → X)
  /-- `M_0_logpdf(x0)` -/
  M0_logpdf : (Fin (N + 1) → X) → Fin (N + 1) → ℝ
  /-- `Gamma_0(x0)` -/
  Gamma0 : X → ℝ
  /-- `M_t_rvs(key, x_t_m_1, params)` -/
  Mt_rvs : Key → (Fin (N + 1) → X) → P → m (Fin (N + 1) → X)
  /-- `M_t_logpdf(x_t_m_1, x_t, params)` -/
  Mt_logpdf : (Fin (N + 1) → X) → (Fin (N + 1) → X) → P → Fin (N + 1) → ℝ
  /-- `Gamma_t(x_t_m_1, x_t, params)` -/
  Gammat : X → X → G → ℝ

variable {X P G : Type} {N n : ℕ}

/-- The inputs scanned by `forward_pass`: `/repo/gradient_csmc/csmc.py:141, 165`. -/
structure FwdInp (X P G : Type) (N : ℕ) where
  Mparams : P
  Gparams : G
  bPrev : Fin (N + 1)
  bCur : Fin (N + 1)
  key : Key
  xstar : X

/-- `body` of `forward_pass`: `/repo/gradient_csmc/csmc.py:139-161`.
The carry is `(w, x)`, the saved values are `(log_w, A, x)`. -/
noncomputable def fwdBody (M : FK m X P G N) (resampling : Resampling m N) (conditional : Bool)
    (c : (Fin (N + 1) → ℝ) × (Fin (N + 1) → X)) (inp : FwdInp X P G N) :
    m (((Fin (N + 1) → ℝ) × (Fin (N + 1) → X)) ×
      ((Fin (N + 1) → ℝ) × (Fin (N + 1) → Fin (N + 1)) × (Fin (N + 1) → X))) := do
  let w_prev := c.1
  let x_prev := c.2
  let keys := splitKey inp.key 2
  let key_proposal := keys 0
  let key_resampling := keys 1
  let A ← resampling key_resampling w_prev inp.bPrev inp.bCur conditional
  let x_prev := take x_prev A
  let x ← M.Mt_rvs key_proposal x_prev inp.Mparams
  let x := if conditional then atSet x inp.bCur inp.xstar else x
  let log_w : Fin (N + 1) → ℝ := fun i =>
    M.Gammat (x_prev i) (x i) inp.Gparams - M.Mt_logpdf x_prev x inp.Mparams i
  let log_w := normalizeLog log_w
  let w : Fin (N + 1) → ℝ := fun i => Real.exp (log_w i)
  pure ((w, x), (log_w, A, x))

/-- Inputs of the forward scan: `/repo/gradient_csmc/csmc.py:163-165`. -/
def fwdInputs (key_loop : Key) (xstar : Fin (n + 1) → X) (bstar : Fin (n + 1) → Fin (N + 1))
    (Mparams : Fin n → P) (Gparams : Fin n → G) : Fin n → FwdInp X P G N := fun t =>
  { Mparams := Mparams t
    Gparams := Gparams t
    bPrev := initA bstar t
    bCur := tailA bstar t
    key := splitKey key_loop n t
    xstar := tailA xstar t }

/-- What `forward_pass` returns (`/repo/gradient_csmc/csmc.py:172`), without the functions and
parameters it merely passes on. -/
structure FwdOut (X : Type) (N n : ℕ) where
  As : Fin n → Fin (N + 1) → Fin (N + 1)
  key_backward : Key
  log_ws : Fin (n + 1) → Fin (N + 1) → ℝ
  xs : Fin (n + 1) → Fin (N + 1) → X

/-- `forward_pass`: `/repo/gradient_csmc/csmc.py:76-172`. -/
noncomputable def forward_pass (key : Key) (xstar : Fin (n + 1) → X)
    (bstar : Fin (n + 1) → Fin (N + 1)) (M : FK m X P G N) (Mparams : Fin n → P)
    (Gparams : Fin n → G) (resampling : Resampling m N) (conditional : Bool) :
    m (FwdOut X N n) := do
  let keys := splitKey key 3
  let key_init := keys 0
  let key_loop := keys 1
  let key_backward := keys 2
  let x0 ← M.M0_rvs key_init
  let x0 := if conditional then atSet x0 (bstar 0) (xstar 0) else x0
  let log_w0 : Fin (N + 1) → ℝ := fun i => M.Gamma0 (x0 i) - M.M0_logpdf x0 i
  let log_w0 := normalizeLog log_w0
  let w0 : Fin (N + 1) → ℝ := fun i => Real.exp (log_w0 i)
  let r ← scanM (fwdBody M resampling conditional) (w0, x0)
    (fwdInputs key_loop xstar bstar Mparams Gparams)
  pure { As := fun t => (r.2 t).2.1
         key_backward := key_backward
         log_ws := insert0 log_w0 (fun t => (r.2 t).1)
         xs := insert0 x0 (fun t => (r.2 t).2.2) }

/-- `body` of `backward_sampling_pass`: `/repo/gradient_csmc/csmc.py:223-231`. -/
noncomputable def bsBody (Gamma_func : X → X → G → ℝ) (x_t : X)
    (inp : Key × (Fin (N + 1) → X) × (Fin (N + 1) → ℝ) × G) : m (X × (X × Fin (N + 1))) := do
  let op_key := inp.1
  let xs_prev := inp.2.1
  let log_w_prev := inp.2.2.1
  let params := inp.2.2.2
  let Gamma_log_w : Fin (N + 1) → ℝ := fun i => Gamma_func (xs_prev i) x_t params
  let Gamma_max := maxA Gamma_log_w
  let Gamma_log_w : Fin (N + 1) → ℝ := fun i => Gamma_log_w i - Gamma_max
  let log_w : Fin (N + 1) → ℝ := fun i => Gamma_log_w i + log_w_prev i
  let w := normalizeW log_w
  let B ← choice op_key w
  let x := xs_prev B
  pure (x, (x, B))

/-- `backward_sampling_pass`: `/repo/gradient_csmc/csmc.py:175-245`.
`barker_move` ignores its last argument, which is `None` in the unconditional case. -/
noncomputable def backward_sampling_pass (key : Key) (Gamma_func : X → X → G → ℝ)
    (Gparams : Fin n → G) (b_star_T : Fin (N + 1)) (xs : Fin (n + 1) → Fin (N + 1) → X)
    (log_ws : Fin (n + 1) → Fin (N + 1) → ℝ) (ancestor_move : AncestorMove m N) (conditional : Bool) :
    m ((Fin (n + 1) → X) × (Fin (n + 1) → Fin (N + 1))) := do
  let keys := splitKey key (n + 1)
  let r ← if !conditional then barker_move (lastA keys) (normalizeW (lastA log_ws)) 0
    else ancestor_move (lastA keys) (normalizeW (lastA log_ws)) b_star_T
  let B_T := r.1
  let x_T := lastA xs B_T
  let Gparams := rev Gparams
  let inps := fun t => (initA keys t, revInit xs t, revInit log_ws t, Gparams t)
  let r ← scanM (bsBody Gamma_func) x_T inps
  let xs := insert0 x_T (fun t => (r.2 t).1)
  let Bs := insert0 B_T (fun t => (r.2 t).2)
  pure (rev xs, rev Bs)

/-- `body` of `backward_scanning_pass`: `/repo/gradient_csmc/csmc.py:282-286`. -/
def bscanBody (B_t : Fin (N + 1)) (inp : (Fin (N + 1) → X) × (Fin (N + 1) → Fin (N + 1))) :
    Fin (N + 1) × (X × Fin (N + 1)) :=
  let xs_prev := inp.1
  let A_t := inp.2
  let B := A_t B_t
  let x := xs_prev B
  (B, (x, B))

/-- `backward_scanning_pass`: `/repo/gradient_csmc/csmc.py:248-292`. -/
noncomputable def backward_scanning_pass (key : Key) (As : Fin n → Fin (N + 1) → Fin (N + 1))
    (b_star_T : Fin (N + 1)) (xs : Fin (n + 1) → Fin (N + 1) → X) (log_w_T : Fin (N + 1) → ℝ)
    (ancestor_move : AncestorMove m N) :
    m ((Fin (n + 1) → X) × (Fin (n + 1) → Fin (N + 1))) := do
  let r ← ancestor_move key (normalizeW log_w_T) b_star_T
  let B_T := r.1
  let x_T := lastA xs B_T
  let r := scan bscanBody B_T (fun t => (revInit xs t, rev As t))
  let xs := insert0 x_T (fun t => (r.2 t).1)
  let Bs := insert0 B_T (fun t => (r.2 t).2)
  pure (rev xs, rev Bs)

/-- Trajectory, indices, log-weights: the output of `csmc.kernel` and of its variants. -/
structure KOut (X : Type) (N n : ℕ) where
  xs : Fin (n + 1) → X
  Bs : Fin (n + 1) → Fin (N + 1)
  log_ws : Fin (n + 1) → Fin (N + 1) → ℝ

/-- `kernel`: `/repo/gradient_csmc/csmc.py:14-73`. -/
noncomputable def csmc_kernel (key : Key) (xstar : Fin (n + 1) → X)
    (bstar : Fin (n + 1) → Fin (N + 1)) (M : FK m X P G N) (Mparams : Fin n → P)
    (Gparams : Fin n → G) (resampling : Resampling m N) (ancestor_move : AncestorMove m N)
    (backward conditional : Bool) : m (KOut X N n) := do
  let F ← forward_pass key xstar bstar M Mparams Gparams resampling conditional
  let r ← if backward then
      backward_sampling_pass F.key_backward M.Gammat Gparams (lastA bstar) F.xs F.log_ws ancestor_move
        conditional
    else
      backward_scanning_pass F.key_backward F.As (lastA bstar) F.xs (lastA F.log_ws) ancestor_move
  pure { xs := r.1, Bs := r.2, log_ws := F.log_ws }

end Verif.Model
