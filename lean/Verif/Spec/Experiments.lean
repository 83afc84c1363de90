import Verif.Spec.Lgssm

/-!
# The posteriors of the experiments
-/

namespace Verif.Spec
open Matrix

variable {n d : ℕ}

/-- Linear Gaussian state-space model of `experiments/lgssm_scaling`: `x_0 ~ N(0, σ² I)`, `x_t ~ N(x_{t-1}, σ² I)`,
`y_t ~ N(x_t, I)`: joint log-density of states and observations. -/
noncomputable def lgTarget (sigma : ℝ) (ys x : Fin (n + 1) → Fin d → ℝ) : ℝ :=
  gaussPathLog 0 (sigma ^ 2 • 1) (fun _ => 1) (fun _ => sigma ^ 2 • 1) (fun _ => 0) x +
    obsLog (fun _ => 1) (fun _ => 1) (fun _ => 0) ys x

/-- Log-likelihood of the stochastic volatility model: `y_t ~ N(0, diag(exp x_t))`. -/
noncomputable def svObs {k : ℕ} (ys x : Fin k → Fin d → ℝ) : ℝ :=
  ∑ t, normalLogpdf 0 (diagonal fun j => Real.exp (x t j)) (ys t)

/-- Stochastic volatility model of `experiments/stochastic_volatility`: `x_0 ~ N(m0, P0)`, `x_t ~ N(F x_{t-1} + b, Q)`,
`y_t ~ N(0, diag(exp x_t))`: joint log-density of states and observations. -/
noncomputable def svTarget (m0 : Fin d → ℝ) (P0 F Q : Matrix (Fin d) (Fin d) ℝ) (b : Fin d → ℝ)
    (ys x : Fin (n + 1) → Fin d → ℝ) : ℝ :=
  gaussPathLog m0 P0 (fun _ => F) (fun _ => Q) (fun _ => b) x + svObs ys x

end Verif.Spec
