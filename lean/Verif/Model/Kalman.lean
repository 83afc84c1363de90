import Verif.Model.Linalg

/-!
# `gradient_csmc/utils/kalman`: filtering, sampling, smoothing

The state has dimension `dx`, the observations dimension `dy`; there are `n + 1` time steps.
-/

namespace Verif.Model
open Verif Matrix

variable {m : Type → Type} [RandM m] {dx dy n N : ℕ}

/-- `sequential_update`: `/repo/gradient_csmc/utils/kalman/filtering.py:59-76` (finite `ell_inc`). -/
noncomputable def sequential_update (y : Vec dy) (m : Vec dx) (P : Mat dx dx) (H : Mat dy dx) (c : Vec dy)
    (R : Mat dy dy) : Vec dx × Mat dx dx × ℝ :=
  let y_hat := H *ᵥ m + c
  let y_diff := y - y_hat
  let S := R + H * P * Hᵀ
  let chol_S := cholesky S
  let ell_inc := mvn_logpdf y y_hat chol_S none true
  let G := (choSolve chol_S (H * P))ᵀ
  let m := m + G *ᵥ y_diff
  let P := P - G * S * Gᵀ
  let P := (0.5 : ℝ) • (P + Pᵀ)
  (m, P, ell_inc)

/-- `sequential_predict`: `/repo/gradient_csmc/utils/kalman/filtering.py:80-85`. -/
noncomputable def sequential_predict (m : Vec dx) (P : Mat dx dx) (F : Mat dx dx) (b : Vec dx) (Q : Mat dx dx) :
    Vec dx × Mat dx dx :=
  let m := F *ᵥ m + b
  let P := Q + F * P * Fᵀ
  let P := (0.5 : ℝ) • (P + Pᵀ)
  (m, P)

/-- `sequential_predict_update`: `/repo/gradient_csmc/utils/kalman/filtering.py:89-93`. -/
noncomputable def sequential_predict_update (m : Vec dx) (P : Mat dx dx) (F : Mat dx dx) (b : Vec dx)
    (Q : Mat dx dx) (y : Vec dy) (H : Mat dy dx) (c : Vec dy) (R : Mat dy dy) : Vec dx × Mat dx dx × ℝ :=
  let r := sequential_predict m P F b Q
  sequential_update y r.1 r.2 H c R

/-- One entry of the inputs of the scan of `filtering`. -/
structure KFInp (dx dy : ℕ) where
  F : Mat dx dx
  Q : Mat dx dx
  b : Vec dx
  H : Mat dy dx
  R : Mat dy dy
  c : Vec dy
  y : Vec dy

/-- `body` of `filtering`: `/repo/gradient_csmc/utils/kalman/filtering.py:44-48`. -/
noncomputable def filteringBody (carry : Vec dx × Mat dx dx × ℝ) (inp : KFInp dx dy) :
    (Vec dx × Mat dx dx × ℝ) × (Vec dx × Mat dx dx) :=
  let r := sequential_predict_update carry.1 carry.2.1 inp.F inp.b inp.Q inp.y inp.H inp.c inp.R
  ((r.1, r.2.1, carry.2.2 + r.2.2), (r.1, r.2.1))

/-- The scan of `filtering` after the treatment of the initial state:
`/repo/gradient_csmc/utils/kalman/filtering.py:44-55`. -/
noncomputable def filteringFrom (ys : Fin n → Vec dy) (m0 : Vec dx) (P0 : Mat dx dx) (ell0 : ℝ)
    (Fs Qs : Fin n → Mat dx dx) (bs : Fin n → Vec dx) (Hs : Fin n → Mat dy dx) (Rs : Fin n → Mat dy dy)
    (cs : Fin n → Vec dy) : (Fin (n + 1) → Vec dx) × (Fin (n + 1) → Mat dx dx) × ℝ :=
  let r := scan filteringBody (m0, P0, ell0) (fun t => (⟨Fs t, Qs t, bs t, Hs t, Rs t, cs t, ys t⟩ : KFInp dx dy))
  (insert0 m0 (fun t => (r.2 t).1), insert0 P0 (fun t => (r.2 t).2), r.1.2.2)

/-- `filtering` when the number of observations differs from the number of states (one observation per
transition): `/repo/gradient_csmc/utils/kalman/filtering.py:13-55`. -/
noncomputable def filtering (ys : Fin n → Vec dy) (m0 : Vec dx) (P0 : Mat dx dx) (Fs Qs : Fin n → Mat dx dx)
    (bs : Fin n → Vec dx) (Hs : Fin n → Mat dy dx) (Rs : Fin n → Mat dy dy) (cs : Fin n → Vec dy) :
    (Fin (n + 1) → Vec dx) × (Fin (n + 1) → Mat dx dx) × ℝ :=
  filteringFrom ys m0 P0 0 Fs Qs bs Hs Rs cs

/-- `filtering` when there are as many observations as states: the first one updates the initial state,
`/repo/gradient_csmc/utils/kalman/filtering.py:13-55`. -/
noncomputable def filtering0 (ys : Fin (n + 1) → Vec dy) (m0 : Vec dx) (P0 : Mat dx dx) (Fs Qs : Fin n → Mat dx dx)
    (bs : Fin n → Vec dx) (Hs : Fin (n + 1) → Mat dy dx) (Rs : Fin (n + 1) → Mat dy dy)
    (cs : Fin (n + 1) → Vec dy) : (Fin (n + 1) → Vec dx) × (Fin (n + 1) → Mat dx dx) × ℝ :=
  let r := sequential_update (ys 0) m0 P0 (Hs 0) (cs 0) (Rs 0)
  filteringFrom (tailA ys) r.1 r.2.1 r.2.2 Fs Qs bs (tailA Hs) (tailA Rs) (tailA cs)

/-- One entry of the inputs of the scans of `sampling` and `smoothing`: filtering mean and covariance at `t`,
dynamics from `t` to `t + 1`. -/
structure BwdInp (dx : ℕ) where
  m : Vec dx
  P : Mat dx dx
  F : Mat dx dx
  Q : Mat dx dx
  b : Vec dx

/-- `body` of `sampling` for one of the `N` samples: `/repo/gradient_csmc/utils/kalman/sampling.py:27-34`. -/
noncomputable def kalmanSamplingBody (x_t_p_1 : Vec dx) (inp : Vec dx × BwdInp dx) : Vec dx × Vec dx :=
  let eps_t := inp.1
  let r := sequential_update x_t_p_1 inp.2.m inp.2.P inp.2.F inp.2.b inp.2.Q
  let chol_P_t := cholesky r.2.1
  let inc_t := chol_P_t *ᵥ eps_t
  let x_t := r.1 + inc_t
  (x_t, x_t)

/-- One sample of `sampling` as a function of its noise `eps` (of shape `(T, d)`):
`/repo/gradient_csmc/utils/kalman/sampling.py:27-41`; `scan(..., reverse=True)` reads its inputs, and stacks its
outputs, from the end. -/
noncomputable def samplingPath (eps : Fin (n + 1) → Vec dx) (ms : Fin (n + 1) → Vec dx)
    (Ps : Fin (n + 1) → Mat dx dx) (Fs Qs : Fin n → Mat dx dx) (bs : Fin n → Vec dx) : Fin (n + 1) → Vec dx :=
  let chol_P_T := cholesky (lastA Ps)
  let inc_T := chol_P_T *ᵥ eps 0
  let x_T := lastA ms + inc_T
  let r := scan kalmanSamplingBody x_T (rev fun t => (tailA eps t, (⟨initA ms t, initA Ps t, Fs t, Qs t, bs t⟩ : BwdInp dx)))
  snocA (rev r.2) x_T

/-- `sampling(key, ms, Ps, Fs, Qs, bs, N)`: `/repo/gradient_csmc/utils/kalman/sampling.py:8-43`. The noise has
shape `(T, d, N)`; sample `i` uses `epsilons[:, :, i]` only. -/
noncomputable def kalman_sampling (key : Key) (ms : Fin (n + 1) → Vec dx) (Ps : Fin (n + 1) → Mat dx dx)
    (Fs Qs : Fin n → Mat dx dx) (bs : Fin n → Vec dx) (N : ℕ) : m (Fin N → Fin (n + 1) → Vec dx) := do
  let epsilons ← normal3 key (n + 1) dx N
  pure (fun i => samplingPath (fun t j => epsilons t j i) ms Ps Fs Qs bs)

/-- `body` of `prior_sampling` for one of the `N` samples: `/repo/gradient_csmc/utils/kalman/sampling.py:66-69`. -/
noncomputable def priorBody (x_t_m_1 : Vec dx) (inp : Vec dx × Mat dx dx × Mat dx dx × Vec dx) : Vec dx × Vec dx :=
  let x_t := inp.2.1 *ᵥ x_t_m_1 + inp.2.2.2 + cholesky inp.2.2.1 *ᵥ inp.1
  (x_t, x_t)

/-- One sample of `prior_sampling` as a function of its noise: `/repo/gradient_csmc/utils/kalman/sampling.py:64-73`. -/
noncomputable def priorPath (eps : Fin (n + 1) → Vec dx) (m0 : Vec dx) (P0 : Mat dx dx) (Fs Qs : Fin n → Mat dx dx)
    (bs : Fin n → Vec dx) : Fin (n + 1) → Vec dx :=
  let x0 := m0 + cholesky P0 *ᵥ eps 0
  let r := scan priorBody x0 (fun t => (tailA eps t, Fs t, Qs t, bs t))
  insert0 x0 r.2

/-- `prior_sampling(key, m0, P0, Fs, Qs, bs, N)`: `/repo/gradient_csmc/utils/kalman/sampling.py:46-75`. -/
noncomputable def prior_sampling (key : Key) (m0 : Vec dx) (P0 : Mat dx dx) (Fs Qs : Fin n → Mat dx dx)
    (bs : Fin n → Vec dx) (N : ℕ) : m (Fin N → Fin (n + 1) → Vec dx) := do
  let epsilons ← normal3 key (n + 1) dx N
  pure (fun i => priorPath (fun t j => epsilons t j i) m0 P0 Fs Qs bs)

/-- `body` of `smoothing`: `/repo/gradient_csmc/utils/kalman/smoothing.py:21-33`. -/
noncomputable def smoothingBody (carry : Vec dx × Mat dx dx) (inp : BwdInp dx) :
    (Vec dx × Mat dx dx) × (Vec dx × Mat dx dx) :=
  let mean_diff := carry.1 - (inp.b + inp.F *ᵥ inp.m)
  let S := inp.F * inp.P * inp.Fᵀ + inp.Q
  let cov_diff := carry.2 - S
  let gain := inp.P * (solvePos S inp.F)ᵀ
  let m_t := inp.m + gain *ᵥ mean_diff
  let P_t := inp.P + gain * cov_diff * gainᵀ
  ((m_t, P_t), (m_t, P_t))

/-- `smoothing(ms, Ps, Fs, Qs, bs)`: `/repo/gradient_csmc/utils/kalman/smoothing.py:7-39`. -/
noncomputable def smoothing (ms : Fin (n + 1) → Vec dx) (Ps : Fin (n + 1) → Mat dx dx) (Fs Qs : Fin n → Mat dx dx)
    (bs : Fin n → Vec dx) : (Fin (n + 1) → Vec dx) × (Fin (n + 1) → Mat dx dx) :=
  let r := scan smoothingBody (lastA ms, lastA Ps) (rev fun t =>
    (⟨initA ms t, initA Ps t, Fs t, Qs t, bs t⟩ : BwdInp dx))
  (snocA (rev fun t => (r.2 t).1) (lastA ms), snocA (rev fun t => (r.2 t).2) (lastA Ps))

end Verif.Model
